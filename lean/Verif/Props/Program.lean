import Verif.Spec.Program
import Verif.Props.Wrapper
import Verif.Props.Session
import Verif.Props.Ident
import Verif.Spec.Decide
/-! # C94: the spans that programs have -/

namespace PM2.Props
open Spec Wrap

section
variable [Compiler] {σ : Type}

theorem treesSpans_mem {ts : List Tree} {sp : Span} : sp ∈ treesSpans ts ↔ ∃ t ∈ ts, sp ∈ treeSpans t := by
  induction ts with
  | nil => simp [treesSpans]
  | cons t ts ih => simp [treesSpans, ih]

variable {K : Span → Prop}

/-- All spans of the value are known. -/
def Kn (K : Span → Prop) (l : List Span) : Prop := ∀ sp ∈ l, K sp

theorem Kn.nil : Kn K [] := by simp [Kn]

theorem kn_append {a b : List Span} : Kn K (a ++ b) ↔ Kn K a ∧ Kn K b := by
  simp [Kn, or_imp, forall_and]

theorem kn_single {s : Span} : Kn K [s] ↔ K s := by simp [Kn]

theorem kn_cons {s : Span} {l : List Span} : Kn K (s :: l) ↔ K s ∧ Kn K l := by simp [Kn]

theorem kn_trees {ts : List Tree} : Kn K (treesSpans ts) ↔ ∀ t ∈ ts, Kn K (treeSpans t) := by
  constructor
  · intro h t ht sp hs; exact h sp (treesSpans_mem.mpr ⟨t, ht, hs⟩)
  · intro h sp hs; obtain ⟨t, ht, hs⟩ := treesSpans_mem.mp hs; exact h t ht sp hs

theorem kn_pushTree {t : Tree} (h : Kn K (treeSpans t)) : Kn K (treesSpans (pushTree t)) := by
  rw [kn_trees]
  intro u hu
  cases t with
  | literalF r s =>
    simp only [pushTree] at hu
    split at hu
    · simp only [List.mem_cons, List.not_mem_nil, or_false] at hu
      rcases hu with rfl | rfl <;> exact h
    · simp only [List.mem_cons, List.not_mem_nil, or_false] at hu
      subst hu; exact h
  | _ => simp only [pushTree, List.mem_cons, List.not_mem_nil, or_false] at hu; subst hu; exact h

theorem kn_pushTrees {ts : List Tree} (h : ∀ t ∈ ts, Kn K (treeSpans t)) :
    Kn K (treesSpans (ts.flatMap pushTree)) := by
  rw [kn_trees]
  intro u hu
  obtain ⟨t, ht, hu⟩ := List.mem_flatMap.mp hu
  exact kn_trees.mp (kn_pushTree (h t ht)) u hu

/-- The variables have known spans only. -/
def AllK (K : Span → Prop) (s : State σ) : Prop := ∀ v ∈ s.vars, Kn K (valueSpans v)

theorem AllK.push {s : State σ} (h : AllK K s) {v : Value σ} (hv : Kn K (valueSpans v)) : AllK K (s.push v) := by
  intro w hw
  simp only [State.push, List.mem_append, List.mem_cons, List.not_mem_nil, or_false] at hw
  rcases hw with hw | rfl
  · exact h w hw
  · exact hv

theorem AllK.set {s : State σ} (h : AllK K s) {v : Value σ} (hv : Kn K (valueSpans v)) (i : Nat) :
    AllK K (s.set i v) := by
  intro w hw
  rcases List.mem_or_eq_of_mem_set hw with hw | rfl
  · exact h w hw
  · exact hv

theorem AllK.get {s : State σ} (h : AllK K s) {i : Nat} {v : Value σ} (hv : s.vars[i]? = some v) :
    Kn K (valueSpans v) := h v (List.mem_of_getElem? hv)

theorem AllK.stream {s : State σ} (h : AllK K s) {i : Nat} {x : WStream σ} (hx : s.stream i = .ok x) :
    Kn K (streamSpans x) := h.get (stream_ok.mp hx)

theorem AllK.tree {s : State σ} (h : AllK K s) {i : Nat} {x : Tree} (hx : s.tree i = .ok x) :
    Kn K (treeSpans x) := h.get (tree_ok.mp hx)

theorem AllK.span {s : State σ} (h : AllK K s) {i : Nat} {x : WSpan} (hx : s.span i = .ok x) :
    Kn K (spanSpans x) := h.get (span_ok.mp hx)

theorem delim_ok {s : State σ} {i : Nat} {x : WDelim} : s.delim i = .ok x ↔ s.vars[i]? = some (.delim x) := by
  unfold State.delim
  split
  · rename_i y hy; rw [hy]; simp
  · rename_i hn
    constructor
    · intro h; cases h
    · intro h; exact absurd h (hn x)

theorem AllK.delim {s : State σ} (h : AllK K s) {i : Nat} {x : WDelim} (hx : s.delim i = .ok x) :
    Kn K (spanSpans x.join) := by
  have := h.get (delim_ok.mp hx)
  cases x with
  | compiler a b c => exact Kn.nil
  | fallback a => exact this

theorem AllK.trees {s : State σ} (h : AllK K s) {is : List Nat} {ts : List Tree} (hx : s.trees is = .ok ts) :
    ∀ t ∈ ts, Kn K (treeSpans t) := by
  induction is generalizing ts with
  | nil =>
    simp only [State.trees, Out.ok.injEq] at hx
    subst hx
    intro t ht; cases ht
  | cons i is ih =>
    simp only [State.trees, bind_ok, Out.ok.injEq] at hx
    obtain ⟨a, ha, b, hb, rfl⟩ := hx
    intro t ht
    cases ht with
    | head => exact h.tree ha
    | tail _ ht => exact ih hb t ht

theorem AllK.streams {s : State σ} (h : AllK K s) {is : List Nat} {xs : List (WStream σ)}
    (hx : s.streams is = .ok xs) : ∀ x ∈ xs, Kn K (streamSpans x) := by
  induction is generalizing xs with
  | nil =>
    simp only [State.streams, Out.ok.injEq] at hx
    subst hx
    intro t ht; cases ht
  | cons i is ih =>
    simp only [State.streams, bind_ok, Out.ok.injEq] at hx
    obtain ⟨a, ha, b, hb, rfl⟩ := hx
    intro t ht
    cases ht with
    | head => exact h.stream ha
    | tail _ ht => exact ih hb t ht

/-! ## Functions -/

theorem kn_ofCompilerToken {c : CTree} {t : Tree} (h : ofCompilerToken c = .ok t) : Kn K (treeSpans t) := by
  cases c with
  | punct ch sp s =>
    simp only [ofCompilerToken] at h
    split at h
    · simp only [Out.ok.injEq] at h; subst h; exact Kn.nil
    · cases h
  | _ => simp only [ofCompilerToken, Out.ok.injEq] at h; subst h; exact Kn.nil

theorem kn_callSite (hc : K Span.callSite) (inside : Bool) : Kn K (spanSpans (WSpan.callSite inside)) := by
  cases inside
  · exact kn_single.mpr hc
  · exact Kn.nil

theorem kn_resolvedAt {a b c : WSpan} (ha : Kn K (spanSpans a)) (h : a.resolvedAt b = .ok c) :
    Kn K (spanSpans c) := by
  cases a <;> cases b <;> simp only [WSpan.resolvedAt, Out.ok.injEq, reduceCtorEq] at h <;> subst h
  · exact Kn.nil
  · exact ha

theorem kn_locatedAt {a b c : WSpan} (hb : Kn K (spanSpans b)) (h : a.locatedAt b = .ok c) :
    Kn K (spanSpans c) := by
  cases a <;> cases b <;> simp only [WSpan.locatedAt, Out.ok.injEq, reduceCtorEq] at h <;> subst h
  · exact Kn.nil
  · exact hb

theorem kn_treeSpan {t : Tree} (h : Kn K (treeSpans t)) : Kn K (spanSpans t.span) := by
  cases t with
  | groupF d ts s => exact kn_single.mpr (kn_cons.mp h).1
  | groupC g => exact Kn.nil
  | identC g => exact Kn.nil
  | literalC g => exact Kn.nil
  | _ => exact h

theorem kn_setSpan {t u : Tree} {a : WSpan} (ht : Kn K (treeSpans t)) (ha : Kn K (spanSpans a))
    (h : t.setSpan a = .ok u) : Kn K (treeSpans u) := by
  cases t <;> cases a <;> simp only [Tree.setSpan, Out.ok.injEq, reduceCtorEq] at h <;> subst h
  all_goals first
    | exact Kn.nil
    | exact ha
    | exact kn_cons.mpr ⟨kn_single.mp ha, (kn_cons.mp ht).2⟩

theorem kn_literalUnchecked (hc : K Span.callSite) {inside : Bool} {r : List Char} {t : Tree}
    (h : Wrap.literalUnchecked inside r = .ok t) : Kn K (treeSpans t) := by
  cases inside
  · simp only [Wrap.literalUnchecked, Bool.false_eq_true, if_false, Out.ok.injEq] at h
    subst h; exact kn_single.mpr hc
  · simp only [Wrap.literalUnchecked, if_true] at h
    split at h
    · simp only [Out.ok.injEq] at h; subst h; exact Kn.nil
    · cases h
    · cases h

theorem kn_delimSpan {t : Tree} {d : WDelim} (ht : Kn K (treeSpans t)) (h : t.delimSpan = some d) :
    Kn K (valueSpans (.delim d : Value σ)) := by
  cases t <;> simp only [Tree.delimSpan, Option.some.injEq, reduceCtorEq] at h <;> subst h
  · exact Kn.nil
  · exact kn_single.mpr (kn_cons.mp ht).1

theorem kn_streamTree {t : Tree} [Rep σ] {x : WStream σ} (ht : Kn K (treeSpans t)) (h : t.stream = some x) :
    Kn K (streamSpans x) := by
  cases t <;> simp only [Tree.stream, Option.some.injEq, reduceCtorEq] at h <;> subst h
  · exact Kn.nil
  · exact (kn_cons.mp ht).2

section
variable [Rep σ]

theorem kn_fromTree {inside : Bool} {t : Tree} {x : WStream σ} (ht : Kn K (treeSpans t))
    (h : WStream.fromTree inside t = .ok x) : Kn K (streamSpans x) := by
  cases inside
  · simp only [WStream.fromTree, Bool.false_eq_true, if_false, Out.ok.injEq] at h
    subst h; exact kn_pushTree ht
  · simp only [WStream.fromTree, if_true, bind_ok, Out.ok.injEq] at h
    obtain ⟨a, -, rfl⟩ := h
    exact Kn.nil

theorem kn_collectTrees {inside : Bool} {ts : List Tree} {x : WStream σ} (ht : ∀ t ∈ ts, Kn K (treeSpans t))
    (h : WStream.collectTrees inside ts = .ok x) : Kn K (streamSpans x) := by
  cases inside
  · simp only [WStream.collectTrees, Bool.false_eq_true, if_false, Out.ok.injEq] at h
    subst h; exact kn_pushTrees ht
  · simp only [WStream.collectTrees, if_true, bind_ok, Out.ok.injEq] at h
    obtain ⟨a, -, rfl⟩ := h
    exact Kn.nil

theorem kn_extendTrees {x y : WStream σ} {ts : List Tree} (hx : Kn K (streamSpans x))
    (ht : ∀ t ∈ ts, Kn K (treeSpans t)) (h : x.extendTrees ts = .ok y) : Kn K (streamSpans y) := by
  cases x with
  | compiler x =>
    simp only [WStream.extendTrees, bind_ok, Out.ok.injEq] at h
    obtain ⟨a, -, rfl⟩ := h
    exact Kn.nil
  | fallback us =>
    simp only [WStream.extendTrees, Out.ok.injEq] at h
    subst h
    refine kn_trees.mpr fun t h => ?_
    rcases List.mem_append.mp h with h | h
    · exact kn_trees.mp hx t h
    · exact kn_trees.mp (kn_pushTrees ht) t h

omit [Rep σ] in
theorem kn_unwrapStables {xs : List (WStream σ)} {l : List (List Tree)} (hx : ∀ x ∈ xs, Kn K (streamSpans x))
    (h : unwrapStables xs = .ok l) : ∀ ts ∈ l, Kn K (treesSpans ts) := by
  induction xs generalizing l with
  | nil => simp only [unwrapStables, Out.ok.injEq] at h; subst h; intro t ht; cases ht
  | cons x xs ih =>
    simp only [unwrapStables, bind_ok, Out.ok.injEq] at h
    obtain ⟨a, ha, b, hb, rfl⟩ := h
    intro ts hts
    cases hts with
    | head =>
      cases x with
      | compiler x => cases ha
      | fallback us =>
        simp only [WStream.unwrapStable, Out.ok.injEq] at ha
        subst ha
        exact hx _ (.head _)
    | tail _ hts => exact ih (fun y hy => hx y (.tail _ hy)) hb ts hts

theorem kn_extendStreams {x y : WStream σ} {xs : List (WStream σ)} (hx : Kn K (streamSpans x))
    (hs : ∀ x ∈ xs, Kn K (streamSpans x)) (h : x.extendStreams xs = .ok y) : Kn K (streamSpans y) := by
  cases x with
  | compiler x =>
    simp only [WStream.extendStreams, bind_ok, Out.ok.injEq] at h
    obtain ⟨a, -, rfl⟩ := h
    exact Kn.nil
  | fallback us =>
    simp only [WStream.extendStreams, bind_ok, Out.ok.injEq] at h
    obtain ⟨l, hl, rfl⟩ := h
    refine kn_trees.mpr fun t h => ?_
    rcases List.mem_append.mp h with h | h
    · exact kn_trees.mp hx t h
    · obtain ⟨ts, hts, ht⟩ := List.mem_flatten.mp h
      exact kn_trees.mp (kn_unwrapStables hs hl ts hts) t ht

theorem kn_new (inside : Bool) : Kn K (streamSpans (WStream.new inside : WStream σ)) := by
  cases inside <;> exact Kn.nil

theorem kn_collectStreams {inside : Bool} {y : WStream σ} {xs : List (WStream σ)}
    (hs : ∀ x ∈ xs, Kn K (streamSpans x)) (h : WStream.collectStreams inside xs = .ok y) :
    Kn K (streamSpans y) := by
  cases xs with
  | nil => simp only [WStream.collectStreams, Out.ok.injEq] at h; subst h; exact kn_new inside
  | cons x xs => exact kn_extendStreams (hs x (.head _)) (fun y hy => hs y (.tail _ hy)) h

theorem kn_intoIter {x : WStream σ} (hx : Kn K (streamSpans x)) : Kn K (valueSpans x.intoIter) := by
  cases x with
  | compiler x => exact Kn.nil
  | fallback ts => exact hx

theorem kn_groupNew (hc : K Span.callSite) {x : WStream σ} (hx : Kn K (streamSpans x)) (d : Delimiter) :
    Kn K (treeSpans (groupNewW d x)) := by
  cases x with
  | compiler x => exact Kn.nil
  | fallback ts => exact kn_cons.mpr ⟨hc, hx⟩

end

section
variable [UnicodeTables] [LawfulUnicode]

theorem ofRes_ok {α : Type} {x : Res Unit α} {a : α} (h : Out.ofRes x = .ok a) : x = .ok a := by
  cases x <;> simp_all [Out.ofRes]

theorem kn_identNew {x : List Char} {a : WSpan} {t : Tree} (ha : Kn K (spanSpans a))
    (h : identNewW x a = .ok t) : Kn K (treeSpans t) := by
  cases a with
  | compiler a =>
    simp only [identNewW, bind_ok, Out.ok.injEq] at h
    obtain ⟨i, -, rfl⟩ := h
    exact Kn.nil
  | fallback a =>
    simp only [identNewW, bind_ok, Out.ok.injEq] at h
    obtain ⟨i, hi, rfl⟩ := h
    have hi := ofRes_ok hi
    by_cases hv : ∃ c t, x = c :: t ∧ (c = '_' ∨ xidStart c = true) ∧ ∀ d ∈ t, xidContinue d = true
    · rw [(C29_ident_new x a).1 hv] at hi; cases hi; exact ha
    · rw [(C29_ident_new x a).2 hv] at hi; cases hi

theorem kn_identNewRaw {x : List Char} {a : WSpan} {t : Tree} (ha : Kn K (spanSpans a))
    (h : identNewRawW x a = .ok t) : Kn K (treeSpans t) := by
  cases a with
  | compiler a =>
    simp only [identNewRawW, bind_ok, Out.ok.injEq] at h
    obtain ⟨i, -, rfl⟩ := h
    exact Kn.nil
  | fallback a =>
    simp only [identNewRawW, bind_ok, Out.ok.injEq] at h
    obtain ⟨i, hi, rfl⟩ := h
    have hi := ofRes_ok hi
    by_cases hv : Ident.new (ε := Unit) x a = .ok (.ident x false a) ∧
        x ∉ ["_".toList, "super".toList, "self".toList, "Self".toList, "crate".toList]
    · rw [(C30_ident_new_raw x a).1 hv] at hi; cases hi; exact ha
    · rw [(C30_ident_new_raw x a).2 hv] at hi; cases hi

/-- The calls that make new spans, or look at the source map. -/
def Special : Op → Prop
  | .fromStr _ | .literalFromStr _ | .byteRange _ | .sourceText _ | .join _ _ | .subspan _ _ _ | .spanOpen _
  | .spanClose _ | .delimOpen _ | .delimClose _ | .invalidate => True
  | _ => False

variable [Rep σ]

theorem typed_ok {α : Type} {x : Option α} {a : α} (h : Out.typed x = .ok a) : x = some a := by
  cases x <;> simp_all [Out.typed]

/-- Every other call only copies spans, or uses the call site. -/
theorem step_keeps {s s' : State σ} (hk : AllK K s) (hc : K Span.callSite) {op : Op} (hn : ¬ Special op)
    {inside : Bool} (h : Wrap.step inside s op = .ok s') : AllK K s' ∧ s'.sm = s.sm := by
  cases op with
  | new => simp only [Wrap.step, Out.ok.injEq] at h; subst h; exact ⟨hk.push (kn_new inside), rfl⟩
  | fromStr src => exact (hn trivial).elim
  | fromCompiler ts => simp only [Wrap.step, Out.ok.injEq] at h; subst h; exact ⟨hk.push Kn.nil, rfl⟩
  | spanFromCompiler a => simp only [Wrap.step, Out.ok.injEq] at h; subst h; exact ⟨hk.push Kn.nil, rfl⟩
  | clone i =>
    simp only [Wrap.step, bind_ok, Out.ok.injEq] at h
    obtain ⟨v, hv, rfl⟩ := h
    exact ⟨hk.push (hk.get (typed_ok hv)), rfl⟩
  | fromTree i =>
    simp only [Wrap.step, bind_ok, Out.ok.injEq] at h
    obtain ⟨t, ht, x, hx, rfl⟩ := h
    exact ⟨hk.push (kn_fromTree (hk.tree ht) hx), rfl⟩
  | collectTrees is =>
    simp only [Wrap.step, bind_ok, Out.ok.injEq] at h
    obtain ⟨ts, ht, x, hx, rfl⟩ := h
    exact ⟨hk.push (kn_collectTrees (hk.trees ht) hx), rfl⟩
  | collectStreams is =>
    simp only [Wrap.step, bind_ok, Out.ok.injEq] at h
    obtain ⟨ts, ht, x, hx, rfl⟩ := h
    exact ⟨hk.push (kn_collectStreams (hk.streams ht) hx), rfl⟩
  | extendTrees i js =>
    simp only [Wrap.step, bind_ok, Out.ok.injEq] at h
    obtain ⟨x, hx, ts, ht, y, hy, rfl⟩ := h
    exact ⟨hk.set (v := .stream y) (kn_extendTrees (hk.stream hx) (hk.trees ht) hy) i, rfl⟩
  | extendStreams i js =>
    simp only [Wrap.step, bind_ok, Out.ok.injEq] at h
    obtain ⟨x, hx, ts, ht, y, hy, rfl⟩ := h
    exact ⟨hk.set (v := .stream y) (kn_extendStreams (hk.stream hx) (hk.streams ht) hy) i, rfl⟩
  | intoIter i =>
    simp only [Wrap.step, bind_ok, Out.ok.injEq] at h
    obtain ⟨x, hx, rfl⟩ := h
    exact ⟨hk.push (kn_intoIter (hk.stream hx)), rfl⟩
  | next i =>
    simp only [Wrap.step] at h
    split at h
    · simp only [Out.ok.injEq] at h; subst h; exact ⟨hk.push Kn.nil, rfl⟩
    · simp only [bind_ok, Out.ok.injEq] at h
      obtain ⟨a, ha, rfl⟩ := h
      exact ⟨(hk.set Kn.nil i).push (kn_ofCompilerToken ha), rfl⟩
    · simp only [Out.ok.injEq] at h; subst h; exact ⟨hk.push Kn.nil, rfl⟩
    · rename_i t ts hv
      simp only [Out.ok.injEq] at h; subst h
      have hv : Kn K (treesSpans (t :: ts)) := hk.get hv
      rw [treesSpans, kn_append] at hv
      exact ⟨(hk.set (v := .iterF ts) hv.2 i).push hv.1, rfl⟩
    · cases h
  | callSite => simp only [Wrap.step, Out.ok.injEq] at h; subst h; exact ⟨hk.push (kn_callSite hc inside), rfl⟩
  | mixedSite =>
    simp only [Wrap.step, Out.ok.injEq] at h; subst h
    refine ⟨hk.push ?_, rfl⟩
    cases inside
    · exact kn_single.mpr hc
    · exact Kn.nil
  | defSite =>
    simp only [Wrap.step, Out.ok.injEq] at h; subst h
    refine ⟨hk.push ?_, rfl⟩
    cases inside
    · exact kn_single.mpr hc
    · exact Kn.nil
  | resolvedAt i j =>
    simp only [Wrap.step, bind_ok, Out.ok.injEq] at h
    obtain ⟨a, ha, b, hb, c, hc', rfl⟩ := h
    exact ⟨hk.push (kn_resolvedAt (hk.span ha) hc'), rfl⟩
  | locatedAt i j =>
    simp only [Wrap.step, bind_ok, Out.ok.injEq] at h
    obtain ⟨a, ha, b, hb, c, hc', rfl⟩ := h
    exact ⟨hk.push (kn_locatedAt (hk.span hb) hc'), rfl⟩
  | join i j => exact (hn trivial).elim
  | groupNew d i =>
    simp only [Wrap.step, bind_ok, Out.ok.injEq] at h
    obtain ⟨x, hx, rfl⟩ := h
    exact ⟨hk.push (kn_groupNew hc (hk.stream hx) d), rfl⟩
  | groupStream i =>
    simp only [Wrap.step, bind_ok, Out.ok.injEq] at h
    obtain ⟨t, ht, x, hx, rfl⟩ := h
    exact ⟨hk.push (kn_streamTree (hk.tree ht) (typed_ok hx)), rfl⟩
  | span i =>
    simp only [Wrap.step, bind_ok, Out.ok.injEq] at h
    obtain ⟨t, ht, rfl⟩ := h
    exact ⟨hk.push (kn_treeSpan (hk.tree ht)), rfl⟩
  | spanOpen i => exact (hn trivial).elim
  | spanClose i => exact (hn trivial).elim
  | setSpan i j =>
    simp only [Wrap.step, bind_ok, Out.ok.injEq] at h
    obtain ⟨t, ht, a, ha, u, hu, rfl⟩ := h
    exact ⟨hk.set (v := .tree u) (kn_setSpan (hk.tree ht) (hk.span ha) hu) i, rfl⟩
  | identNew x i =>
    simp only [Wrap.step, bind_ok, Out.ok.injEq] at h
    obtain ⟨a, ha, t, ht, rfl⟩ := h
    exact ⟨hk.push (kn_identNew (hk.span ha) ht), rfl⟩
  | identNewRaw x i =>
    simp only [Wrap.step, bind_ok, Out.ok.injEq] at h
    obtain ⟨a, ha, t, ht, rfl⟩ := h
    exact ⟨hk.push (kn_identNewRaw (hk.span ha) ht), rfl⟩
  | punctNew ch sp =>
    simp only [Wrap.step, bind_ok, Out.ok.injEq] at h
    obtain ⟨t, ht, rfl⟩ := h
    refine ⟨hk.push ?_, rfl⟩
    simp only [Wrap.punctNew] at ht
    split at ht
    · simp only [Out.ok.injEq] at ht; subst ht; exact kn_callSite hc inside
    · cases ht
  | literalNew r =>
    simp only [Wrap.step, Out.ok.injEq] at h; subst h
    refine ⟨hk.push ?_, rfl⟩
    cases inside
    · exact kn_single.mpr hc
    · exact Kn.nil
  | literalFromStr src => exact (hn trivial).elim
  | subspan i a b => exact (hn trivial).elim
  | errorSpan i =>
    simp only [Wrap.step] at h
    split at h
    · rename_i e he
      simp only [Out.ok.injEq] at h; subst h
      refine ⟨hk.push ?_, rfl⟩
      cases e with
      | fallback a => have := hk.get he; exact this
      | compiler e => exact kn_callSite hc inside
      | compilerPanic => exact kn_callSite hc inside
    · cases h
  | invalidate => exact (hn trivial).elim
  | byteRange i => exact (hn trivial).elim
  | sourceText i => exact (hn trivial).elim
  | localFile i =>
    simp only [Wrap.step, bind_ok, Out.ok.injEq] at h
    obtain ⟨a, ha, rfl⟩ := h
    refine ⟨hk.push ?_, rfl⟩
    cases WSpan.localFile a <;> exact Kn.nil
  | delimSpan i =>
    simp only [Wrap.step, bind_ok, Out.ok.injEq] at h
    obtain ⟨t, ht, d, hd, rfl⟩ := h
    exact ⟨hk.push (kn_delimSpan (hk.tree ht) (typed_ok hd)), rfl⟩
  | delimJoin i =>
    simp only [Wrap.step, bind_ok, Out.ok.injEq] at h
    obtain ⟨d, hd, rfl⟩ := h
    exact ⟨hk.push (hk.delim hd), rfl⟩
  | delimOpen i => exact (hn trivial).elim
  | delimClose i => exact (hn trivial).elim
  | literalUnchecked r =>
    simp only [Wrap.step, bind_ok, Out.ok.injEq] at h
    obtain ⟨t, ht, rfl⟩ := h
    exact ⟨hk.push (kn_literalUnchecked hc ht), rfl⟩
  | byteCharacter b =>
    simp only [Wrap.step, bind_ok, Out.ok.injEq] at h
    obtain ⟨t, ht, rfl⟩ := h
    refine ⟨hk.push ?_, rfl⟩
    cases inside
    · simp only [byteCharacterW, Bool.false_eq_true, if_false, Out.ok.injEq] at ht
      subst ht; exact kn_single.mpr hc
    · simp only [byteCharacterW, if_true] at ht
      split at ht
      · simp only [Out.ok.injEq] at ht; subst ht; exact Kn.nil
      · exact kn_literalUnchecked hc ht
  | cString bs =>
    simp only [Wrap.step, bind_ok, Out.ok.injEq] at h
    obtain ⟨t, ht, rfl⟩ := h
    refine ⟨hk.push ?_, rfl⟩
    cases inside
    · simp only [cStringW, Bool.false_eq_true, if_false, bind_ok, Out.ok.injEq] at ht
      obtain ⟨r, -, rfl⟩ := ht
      exact kn_single.mpr hc
    · simp only [cStringW, if_true] at ht
      split at ht
      · simp only [Out.ok.injEq] at ht; subst ht; exact Kn.nil
      · obtain ⟨r, -, ht⟩ := bind_ok.mp ht
        exact kn_literalUnchecked hc ht
  | sizeHint i =>
    simp only [Wrap.step] at h
    split at h
    · simp only [Out.ok.injEq] at h; subst h; exact ⟨hk.push Kn.nil, rfl⟩
    · simp only [Out.ok.injEq] at h; subst h; exact ⟨hk.push Kn.nil, rfl⟩
    · cases h
  | errorText i =>
    simp only [Wrap.step] at h
    split at h
    · simp only [Out.ok.injEq] at h; subst h; exact ⟨hk.push Kn.nil, rfl⟩
    · cases h
  | _ =>
    simp only [Wrap.step, bind_ok, Out.ok.injEq] at h
    first
      | (obtain ⟨_, _, rfl⟩ := h; exact ⟨hk.push Kn.nil, rfl⟩)
      | (obtain ⟨_, _, _, _, rfl⟩ := h; exact ⟨hk.push Kn.nil, rfl⟩)
      | (obtain ⟨_, _, _, _, _, _, rfl⟩ := h; exact ⟨hk.push Kn.nil, rfl⟩)

theorem Session.callSite {sm : SourceMap} {texts : List (List Char)} (h : Session sm texts K) :
    K Span.callSite := by
  induction h with
  | init => rfl
  | invalidate _ _ => rfl
  | byteRange _ _ _ ih => exact ih
  | sourceText _ _ _ ih => exact ih
  | _ => rename_i ih; exact .inl ih

theorem AllK.mono {K' : Span → Prop} (h : ∀ sp, K sp → K' sp) {s : State σ} (hk : AllK K s) : AllK K' s :=
  fun v hv sp hs => h sp (hk v hv sp hs)

theorem AllK.sm {s : State σ} (hk : AllK K s) (sm : SourceMap) : AllK K { s with sm := sm } := hk

omit [Rep σ] [UnicodeTables] [LawfulUnicode] in
mutual
theorem ofFallback_spans {t : TokenTree} {ts : List TokenTree} (ht : t ∈ ts) :
    ∀ sp ∈ treeSpans (Tree.ofFallback t), ∃ tok, Sub tok ts ∧ tok.span = sp := by
  cases t with
  | group d us s =>
    intro sp hs
    simp only [Tree.ofFallback, treeSpans, List.mem_cons] at hs
    rcases hs with rfl | hs
    · exact ⟨_, .here ht, rfl⟩
    · obtain ⟨tok, h1, h2⟩ := ofFallbacks_spans us sp hs
      exact ⟨tok, .inside ht h1, h2⟩
  | _ =>
    intro sp hs
    simp only [Tree.ofFallback, treeSpans, spanSpans, List.mem_cons, List.not_mem_nil, or_false] at hs
    subst hs
    exact ⟨_, .here ht, rfl⟩
theorem ofFallbacks_spans (ts : List TokenTree) :
    ∀ sp ∈ treesSpans (Tree.ofFallbacks ts), ∃ tok, Sub tok ts ∧ tok.span = sp := by
  cases ts with
  | nil => intro sp hs; cases hs
  | cons t ts =>
    intro sp hs
    simp only [Tree.ofFallbacks, treesSpans, List.mem_append] at hs
    rcases hs with hs | hs
    · exact ofFallback_spans (.head _) sp hs
    · obtain ⟨tok, h1, h2⟩ := ofFallbacks_spans ts sp hs
      refine ⟨tok, ?_, h2⟩
      cases h1 with
      | here h => exact .here (.tail _ h)
      | inside h h' => exact .inside (.tail _ h) h'
end

/-- One call, with the spans that the thread knew before. -/
theorem session_step {s s' : State σ} {texts : List (List Char)} (h : Session s.sm texts K)
    (hk : ∀ sp, HasSpan s sp → K sp) {op : Op} (hl : Live s op) {inside : Bool}
    (hs : Wrap.step inside s op = .ok s') :
    ∃ K', Session s'.sm (textsAfter texts op) K' ∧ AllK K' s' ∧ (op ≠ .invalidate → ∀ sp, K sp → K' sp) := by
  have hc := Session.callSite h
  have hk' : AllK K s := fun v hv sp hsp => hk sp ⟨v, hv, hsp⟩
  have hh := Session.hist h
  by_cases hn : Special op
  · cases op with
    | fromStr src =>
      have hp := Session.parse src h hl
      simp only [Wrap.step] at hs
      obtain ⟨x, hr, hx⟩ := bind_ok.mp hs
      by_cases hroom : Room texts src
      · rw [if_pos hroom] at hp
        have e : s'.sm = (TokenStream.fromStr s.sm src).1 := by
          cases inside <;> cases x <;> (simp only [Out.ok.injEq] at hx; subst hx; rfl)
        refine ⟨_, by rw [e]; exact hp, ?_, fun _ _ => Or.inl⟩
        have hm := hk'.mono (K' := fun s' => K s' ∨ SpanOf (TokenStream.fromStr s.sm src).2 s') fun sp => .inl
        cases inside with
        | true =>
          cases x with
          | inl er =>
            simp only [Out.ok.injEq] at hx; subst hx
            refine (hm.sm _).push ?_
            simp only [WStream.fromStr, if_true, bind_ok] at hr
            obtain ⟨y, hy, hr⟩ := hr
            cases y with
            | inl er' =>
              simp only [Out.ok.injEq, Sum.inl.injEq] at hr; subst hr
              simp only [fromStr2] at hy
              split at hy
              · split at hy <;> (cases hy; try exact Kn.nil)
              · cases hy; exact Kn.nil
              · cases hy
              · cases hy
            | inr ts => cases hr
          | inr x =>
            simp only [Out.ok.injEq] at hx; subst hx
            refine (hm.sm _).push ?_
            simp only [WStream.fromStr, if_true, bind_ok] at hr
            obtain ⟨y, hy, hr⟩ := hr
            cases y with
            | inl er' => cases hr
            | inr ts => cases hr; exact Kn.nil
        | false =>
          simp only [WStream.fromStr, Bool.false_eq_true, if_false] at hr
          cases hq : (TokenStream.fromStr s.sm src).2 with
          | ok ts =>
            rw [hq] at hr; cases hr
            simp only [Out.ok.injEq] at hx; subst hx
            rw [hq] at hm
            refine (hm.sm _).push fun sp hsp => .inr ?_
            obtain ⟨tok, h1, rfl⟩ := ofFallbacks_spans ts sp hsp
            exact .token h1
          | err e =>
            rw [hq] at hr; cases hr
            simp only [Out.ok.injEq] at hx; subst hx
            rw [hq] at hm
            refine (hm.sm _).push (kn_single.mpr (.inr .error))
          | panic => rw [hq] at hr; cases hr
          | diverge => rw [hq] at hr; cases hr
      · have e := C01_exhausted hh hl hroom
        cases inside <;> (simp only [WStream.fromStr, e, fromStr2] at hr; cases hr)
    | literalFromStr src =>
      have hp := Session.literal src h hl
      simp only [Wrap.step] at hs
      obtain ⟨x, hr, hx⟩ := bind_ok.mp hs
      by_cases hroom : Room texts src
      · rw [if_pos hroom] at hp
        have e : s'.sm = (Literal.fromStr s.sm src).1 := by
          cases inside <;> cases x <;> (simp only [Out.ok.injEq] at hx; subst hx; rfl)
        refine ⟨_, by rw [e]; exact hp, ?_, fun _ _ => Or.inl⟩
        have hm := hk'.mono (K' := fun s' => K s' ∨ LitSpanOf (Literal.fromStr s.sm src).2 s') fun sp => .inl
        cases inside with
        | true =>
          cases x with
          | inl er =>
            simp only [Out.ok.injEq] at hx; subst hx
            refine (hm.sm _).push ?_
            simp only [Wrap.literalFromStr, if_true, bind_ok] at hr
            obtain ⟨y, hy, hr⟩ := hr
            cases y with
            | inl er' =>
              simp only [Out.ok.injEq, Sum.inl.injEq] at hr; subst hr
              simp only [fromStr2] at hy
              split at hy
              · split at hy <;> (cases hy; try exact Kn.nil)
              · cases hy; exact Kn.nil
              · cases hy
              · cases hy
            | inr ts => cases hr
          | inr x =>
            simp only [Out.ok.injEq] at hx; subst hx
            refine (hm.sm _).push ?_
            simp only [Wrap.literalFromStr, if_true, bind_ok] at hr
            obtain ⟨y, hy, hr⟩ := hr
            cases y with
            | inl er' => cases hr
            | inr ts => cases hr; exact Kn.nil
        | false =>
          simp only [Wrap.literalFromStr, Bool.false_eq_true, if_false] at hr
          cases hq : (Literal.fromStr s.sm src).2 with
          | ok l =>
            obtain ⟨r, l⟩ := l
            rw [hq] at hr; cases hr
            simp only [Out.ok.injEq] at hx; subst hx
            rw [hq] at hm
            exact (hm.sm _).push (kn_single.mpr (.inr .token))
          | err e =>
            rw [hq] at hr; cases hr
            simp only [Out.ok.injEq] at hx; subst hx
            rw [hq] at hm
            refine (hm.sm _).push (kn_single.mpr (.inr .error))
          | panic => rw [hq] at hr; cases hr
          | diverge => rw [hq] at hr; cases hr
      · have hnp := hh.holds.2.nextPos
        have e := (getCursor_panic hh.wf hl (by rw [hnp]; exact hroom)).2
        cases inside <;> (simp only [Wrap.literalFromStr, e, fromStr2] at hr; cases hr)
    | byteRange i =>
      simp only [Wrap.step, bind_ok, Out.ok.injEq] at hs
      obtain ⟨a, ha, r, hr, rfl⟩ := hs
      have hka := hk'.span ha
      cases a with
      | compiler a =>
        simp only [WSpan.byteRange, Out.ok.injEq] at hr; subst hr
        exact ⟨K, h, hk'.push Kn.nil, fun _ _ => id⟩
      | fallback a =>
        have hr := ofRes_ok hr
        exact ⟨K, .byteRange h (kn_single.mp hka) hr, (hk'.sm _).push Kn.nil, fun _ _ => id⟩
    | sourceText i =>
      simp only [Wrap.step, bind_ok, Out.ok.injEq] at hs
      obtain ⟨a, ha, r, hr, rfl⟩ := hs
      have hka := hk'.span ha
      have hnil : Kn K (valueSpans (Value.ofText (σ := σ) r.2)) := by cases r.2 <;> exact Kn.nil
      cases a with
      | compiler a =>
        simp only [WSpan.sourceText, Out.ok.injEq] at hr; subst hr
        exact ⟨K, h, hk'.push hnil, fun _ _ => id⟩
      | fallback a =>
        have hr := ofRes_ok hr
        exact ⟨K, .sourceText h (kn_single.mp hka) hr, (hk'.sm _).push hnil, fun _ _ => id⟩
    | join i j =>
      simp only [Wrap.step, bind_ok, Out.ok.injEq] at hs
      obtain ⟨a, ha, b, hb, c, hj, rfl⟩ := hs
      cases a with
      | compiler a =>
        cases b with
        | compiler b =>
          simp only [WSpan.join, Out.ok.injEq] at hj
          refine ⟨K, h, hk'.push ?_, fun _ _ => id⟩
          subst hj
          split
          · cases Compiler.join a b <;> exact Kn.nil
          · exact Kn.nil
        | fallback b => cases hj; exact ⟨K, h, hk'.push Kn.nil, fun _ _ => id⟩
      | fallback a =>
        cases b with
        | compiler b => cases hj; exact ⟨K, h, hk'.push Kn.nil, fun _ _ => id⟩
        | fallback b =>
          simp only [WSpan.join, bind_ok, Out.ok.injEq] at hj
          obtain ⟨j, hj, rfl⟩ := hj
          have hj := ofRes_ok hj
          cases j with
          | none => exact ⟨K, h, hk'.push Kn.nil, fun _ _ => id⟩
          | some c =>
            exact ⟨_, .join h (kn_single.mp (hk'.span ha)) (kn_single.mp (hk'.span hb)) hj,
              (hk'.mono fun _ => .inl).push (kn_single.mpr (.inr rfl)), fun _ _ => .inl⟩
    | subspan i lo hi =>
      simp only [Wrap.step, bind_ok, Out.ok.injEq] at hs
      obtain ⟨t, ht, c, hj, rfl⟩ := hs
      cases t with
      | literalC l =>
        simp only [Tree.subspan, Out.ok.injEq] at hj
        refine ⟨K, h, hk'.push ?_, fun _ _ => id⟩
        subst hj
        split
        · cases Compiler.literalSubspan l lo hi <;> exact Kn.nil
        · exact Kn.nil
      | literalF r a =>
        simp only [Tree.subspan, Out.ok.injEq] at hj
        subst hj
        cases hc' : PM2.subspan a lo hi with
        | none => exact ⟨K, h, hk'.push Kn.nil, fun _ _ => id⟩
        | some c =>
          exact ⟨_, .subspan lo hi h (kn_single.mp (hk'.tree ht)) hc',
            (hk'.mono fun _ => .inl).push (kn_single.mpr (.inr rfl)), fun _ _ => .inl⟩
      | _ => cases hj
    | spanOpen i =>
      simp only [Wrap.step, bind_ok, Out.ok.injEq] at hs
      obtain ⟨t, ht, c, hj, rfl⟩ := hs
      have hj := typed_ok hj
      cases t with
      | groupC g => cases hj; exact ⟨K, h, hk'.push Kn.nil, fun _ _ => id⟩
      | groupF d ts a =>
        cases hj
        exact ⟨_, .open_ h (kn_cons.mp (hk'.tree ht)).1, (hk'.mono fun _ => .inl).push (kn_single.mpr (.inr rfl)), fun _ _ => .inl⟩
      | _ => cases hj
    | spanClose i =>
      simp only [Wrap.step, bind_ok, Out.ok.injEq] at hs
      obtain ⟨t, ht, c, hj, rfl⟩ := hs
      have hj := typed_ok hj
      cases t with
      | groupC g => cases hj; exact ⟨K, h, hk'.push Kn.nil, fun _ _ => id⟩
      | groupF d ts a =>
        cases hj
        exact ⟨_, .close h (kn_cons.mp (hk'.tree ht)).1, (hk'.mono fun _ => .inl).push (kn_single.mpr (.inr rfl)), fun _ _ => .inl⟩
      | _ => cases hj
    | delimOpen i =>
      simp only [Wrap.step, bind_ok, Out.ok.injEq] at hs
      obtain ⟨d, hd, rfl⟩ := hs
      cases d with
      | compiler j o c => exact ⟨K, h, hk'.push Kn.nil, fun _ _ => id⟩
      | fallback a =>
        exact ⟨_, .open_ h (kn_single.mp (hk'.get (delim_ok.mp hd))), (hk'.mono fun _ => .inl).push (kn_single.mpr (.inr rfl)), fun _ _ => .inl⟩
    | delimClose i =>
      simp only [Wrap.step, bind_ok, Out.ok.injEq] at hs
      obtain ⟨d, hd, rfl⟩ := hs
      cases d with
      | compiler j o c => exact ⟨K, h, hk'.push Kn.nil, fun _ _ => id⟩
      | fallback a =>
        exact ⟨_, .close h (kn_single.mp (hk'.get (delim_ok.mp hd))), (hk'.mono fun _ => .inl).push (kn_single.mpr (.inr rfl)), fun _ _ => .inl⟩
    | invalidate =>
      cases inside with
      | true => simp [Wrap.step] at hs
      | false =>
        simp only [Wrap.step, Bool.false_eq_true, if_false, Out.ok.injEq] at hs; subst hs
        exact ⟨_, .invalidate h, AllK.push (s := { s with sm := s.sm.invalidate })
          (fun v hv sp hsp => hl sp ⟨v, hv, hsp⟩) Kn.nil, fun h => (h rfl).elim⟩
    | _ => exact hn.elim
  · obtain ⟨h1, h2⟩ := step_keeps hk' hc hn hs
    refine ⟨K, ?_, h1, fun _ _ => id⟩
    rw [h2]
    cases op <;> first | exact h | exact (hn trivial).elim

/-- **C94.** One call: the thread's source map is used only with spans that it knows, and the spans that the
variables have afterwards are again spans that the thread knows. -/
theorem C94_step {s s' : State σ} {texts : List (List Char)} (h : Session s.sm texts K)
    (hk : ∀ sp, HasSpan s sp → K sp) {op : Op} (hl : Live s op) {inside : Bool}
    (hs : Wrap.step inside s op = .ok s') :
    ∃ K', Session s'.sm (textsAfter texts op) K' ∧ ∀ sp, HasSpan s' sp → K' sp := by
  obtain ⟨K', h1, h2, _⟩ := session_step h hk hl hs
  exact ⟨K', h1, fun sp ⟨v, hv, hsp⟩ => h2 v hv sp hsp⟩

/-- **C94.** A program: as long as it does not invalidate spans that it still has, it only has spans that the
thread knows. -/
theorem C94_session {s s' : State σ} {texts : List (List Char)} (h : Session s.sm texts K)
    (hk : ∀ sp, HasSpan s sp → K sp) {ops : List (Bool × Op)} (hl : LiveRun s ops)
    (hs : Wrap.run s ops = .ok s') :
    ∃ K', Session s'.sm (textsOf texts ops) K' ∧ ∀ sp, HasSpan s' sp → K' sp := by
  induction ops generalizing s texts K with
  | nil => cases hs; exact ⟨K, h, hk⟩
  | cons p ops ih =>
    obtain ⟨inside, op⟩ := p
    simp only [Wrap.run, bind_ok] at hs
    obtain ⟨s1, h1, hs⟩ := hs
    obtain ⟨K', h2, h3⟩ := C94_step h hk hl.1 h1
    exact ih h2 h3 (hl.2 s1 h1) hs

/-- **C94.** Every span that such a program has lies in one of the texts that it parsed since the last
invalidation, or is the call site. -/
theorem C94_placed {s' : State σ} {ops : List (Bool × Op)} (hl : LiveRun (State.init : State σ) ops)
    (hs : Wrap.run State.init ops = .ok s') {sp : Span} (hsp : HasSpan s' sp) :
    sp = Span.callSite ∨ ∃ i t, InText (textsOf [] ops) i t sp := by
  obtain ⟨K', h1, h2⟩ := C94_session (s := State.init) .init
    (fun sp ⟨v, hv, _⟩ => by cases hv) hl hs
  exact C53_placed h1 sp (h2 sp hsp)

omit [LawfulUnicode] in
theorem liveRun_of {ops : List (Bool × Op)} (h : ∀ x ∈ ops, ∀ s : State σ, Live s x.2) (s : State σ) :
    LiveRun s ops := by
  induction ops generalizing s with
  | nil => trivial
  | cons x ops ih => exact ⟨h x (.head _) s, fun s' _ => ih (fun x hx => h x (.tail _ hx)) s'⟩

end

end

/-! ## Concrete cases -/

section examples

attribute [local instance] sampleCompiler sampleTables sampleTables_lawful

/-- All spans that a program has. -/
private def spansAfter {σ : Type} : Out (State σ) → List Span
  | .ok s => s.vars.flatMap valueSpans
  | _ => []

/-- C94: two texts; the span of an identifier of the second is joined with that of an opening delimiter. Before,
the call site is invalidated. -/
private def program : List (Bool × Op) :=
  [(false, .fromStr ['x', '+']), (false, .fromStr "a (b)".toList), (false, .intoIter 1), (false, .next 2),
    (false, .next 2), (false, .spanOpen 4), (false, .span 3), (false, .join 6 5), (false, .byteRange 7)]

example : LiveRun (State.init : State Deferred) ((false, .callSite) :: (false, .invalidate) :: program) ∧
    spansAfter (Wrap.run (State.init : State Deferred) program) =
      [⟨1, 2⟩, ⟨2, 3⟩, ⟨4, 5⟩, ⟨6, 9⟩, ⟨7, 8⟩, ⟨4, 5⟩, ⟨6, 9⟩, ⟨7, 8⟩, ⟨6, 7⟩, ⟨4, 5⟩, ⟨4, 7⟩] ∧
    InText (textsOf [] program) 1 "a (b)".toList ⟨4, 7⟩ := by
  refine ⟨⟨trivial, fun s hs => ⟨?_, fun s' _ => ?_⟩⟩, by decide +kernel, ?_⟩
  · simp only [Wrap.step, Out.ok.injEq] at hs
    subst hs
    rintro sp ⟨v, hv, hsp⟩
    simp only [State.push, State.init, List.nil_append, List.mem_cons, List.not_mem_nil, or_false] at hv
    subst hv
    simpa [valueSpans, WSpan.callSite, spanSpans] using hsp
  · refine liveRun_of ?_ s'
    intro x hx s
    simp only [program, List.mem_cons, List.not_mem_nil, or_false] at hx
    rcases hx with rfl | rfl | rfl | rfl | rfl | rfl | rfl | rfl | rfl <;> first | trivial | (show List.length _ < _; decide +kernel)
  · exact ⟨by decide, by decide, by decide, by decide⟩

/-- C94: the condition on invalidation is needed; without it a program has a span of no text. -/
example : spansAfter (Wrap.run (State.init : State Deferred)
      [(false, .literalFromStr ['1']), (false, .span 0), (false, .invalidate)]) = [⟨1, 2⟩, ⟨1, 2⟩] ∧
    textsOf [] [(false, Op.literalFromStr ['1']), (false, .span 0), (false, .invalidate)] = [] := by
  refine ⟨?_, rfl⟩
  decide +kernel

end examples

end PM2.Props
