import Verif.Spec.Wrapper
import Verif.Spec.SampleCompiler
import Verif.Spec.Stream
import Verif.Spec.Decide
import Verif.Props.Total
/-! # C56, C57, C58: the wrapper -/

namespace PM2.Props
open Wrap Spec

section
variable [Compiler]

theorem out_bind_ok {α β : Type} (a : α) (f : α → Out β) : (Out.ok a >>= f) = f a := rfl

/-! ## C56 -/

theorem now_new (ts : List CTree) : now (Deferred.new ts) = ⟨ts⟩ := by simp [now, Deferred.new]

theorem now_evaluateNow (d : Deferred) : now d.evaluateNow = now d := by
  unfold Deferred.evaluateNow
  split
  · simp [now, extendC]
  · rfl

theorem evaluateNow_extra (d : Deferred) : d.evaluateNow.extra = [] := by
  unfold Deferred.evaluateNow
  split
  · rfl
  · rename_i h; simpa using h

theorem intoStream_now (d : Deferred) : d.intoStream = (now d).tokens := by
  rw [← now_evaluateNow]
  simp [now, evaluateNow_extra, Deferred.intoStream]

theorem now_extendTrees (d : Deferred) (ts : List CTree) :
    now (d.extendTrees ts) = Rep.extendTrees (now d) ts := by
  simp [now, Deferred.extendTrees, Rep.extendTrees]

theorem now_extendStreams (d : Deferred) (ds : List Deferred) :
    now (d.extendStreams ds) = Rep.extendStreams (now d) (ds.map now) := by
  have h : now (d.extendStreams ds) = ⟨d.evaluateNow.stream ++ ds.flatMap Deferred.intoStream⟩ := by
    simp [now, Deferred.extendStreams, evaluateNow_extra]
  rw [h]
  have : d.evaluateNow.stream = (now d).tokens := intoStream_now d
  simp only [Rep.extendStreams, this, List.flatMap_map]
  congr 2
  apply congrArg (fun f => List.flatMap f ds)
  funext x
  exact intoStream_now x

theorem isEmpty_now (he : ∀ t : CTree, Compiler.enter t ≠ []) (d : Deferred) :
    d.isEmpty = Rep.isEmpty (now d) := by
  obtain ⟨s, e⟩ := d
  cases s with
  | cons x s => simp [Deferred.isEmpty, now, Rep.isEmpty]
  | nil =>
    cases e with
    | nil => simp [Deferred.isEmpty, now, Rep.isEmpty]
    | cons x e =>
      simp only [Deferred.isEmpty, now, Rep.isEmpty, List.nil_append, List.flatMap_cons]
      cases h : Compiler.enter x with
      | nil => exact absurd h (he x)
      | cons y l => simp

section sim
variable {σ τ : Type} (f : σ → τ)

theorem mapOut_bind {α β γ : Type} (x : Out α) (g : α → Out β) (k : β → γ) :
    mapOut k (x >>= g) = x >>= fun a => mapOut k (g a) := by cases x <;> rfl

theorem bind_mapOut {α β γ : Type} (x : Out α) (k : α → β) (g : β → Out γ) :
    (mapOut k x >>= g) = x >>= fun a => g (k a) := by cases x <;> rfl

@[simp] theorem mapOut_ok {α β : Type} (k : α → β) (a : α) : mapOut k (.ok a) = .ok (k a) := rfl
@[simp] theorem mapOut_ill {α β : Type} (k : α → β) : mapOut k .ill = .ill := rfl
@[simp] theorem mapOut_panic {α β : Type} (k : α → β) : mapOut k .panic = .panic := rfl
@[simp] theorem mapStream_compiler (s : σ) : mapStream f (.compiler s) = .compiler (f s) := rfl
@[simp] theorem mapStream_fallback (ts : List Tree) : mapStream f (.fallback ts) = .fallback ts := rfl
@[simp] theorem mapValue_stream (s : WStream σ) : mapValue f (.stream s) = .stream (mapStream f s) := rfl
@[simp] theorem mapValue_tree (t : Tree) : mapValue f (.tree t) = .tree t := rfl
@[simp] theorem mapValue_span (s : WSpan) : mapValue f (.span s) = .span s := rfl
@[simp] theorem mapValue_iterC (ts : List CTree) : mapValue f (.iterC ts) = .iterC ts := rfl
@[simp] theorem mapValue_iterF (ts : List Tree) : mapValue f (.iterF ts) = .iterF ts := rfl
@[simp] theorem mapValue_error (e : LexError) : mapValue f (.error e) = .error e := rfl
@[simp] theorem mapValue_bool (b : Bool) : mapValue f (.bool b) = .bool b := rfl
@[simp] theorem mapValue_text (t : List Char) : mapValue f (.text t) = .text t := rfl
@[simp] theorem mapValue_streamC (ts : List CTree) : mapValue f (.streamC ts) = .streamC ts := rfl
@[simp] theorem mapValue_spanC (s : CompilerTypes.Span) : mapValue f (.spanC s) = .spanC s := rfl
@[simp] theorem mapValue_delim (d : WDelim) : mapValue f (.delim d) = .delim d := rfl
@[simp] theorem mapValue_delimiter (d : Delimiter) : mapValue f (.delimiter d) = .delimiter d := rfl
@[simp] theorem mapValue_spacing (s : Spacing) : mapValue f (.spacing s) = .spacing s := rfl
@[simp] theorem mapValue_ordering (o : Ordering) : mapValue f (.ordering o) = .ordering o := rfl
@[simp] theorem mapValue_range (a b : Nat) : mapValue f (.range a b) = .range a b := rfl
@[simp] theorem mapValue_lineColumn (l : LineColumn) : mapValue f (.lineColumn l) = .lineColumn l := rfl
@[simp] theorem mapValue_hint (a : Nat) (b : Option Nat) : mapValue f (.hint a b) = .hint a b := rfl
@[simp] theorem mapValue_bytes (bs : List UInt8) : mapValue f (.bytes bs) = .bytes bs := rfl
@[simp] theorem mapValue_conversion (r : Except ConversionError (List Char ⊕ List UInt8)) :
    mapValue f (.conversion r) = .conversion r := rfl
@[simp] theorem mapValue_none : mapValue f .none = .none := rfl

theorem mapState_push (s : State σ) (v : Value σ) :
    mapState f (s.push v) = (mapState f s).push (mapValue f v) := by
  simp [mapState, State.push]

theorem mapState_set (s : State σ) (i : Nat) (v : Value σ) :
    mapState f (s.set i v) = (mapState f s).set i (mapValue f v) := by
  simp [mapState, State.set, List.map_set]

theorem mapState_sm (s : State σ) (sm : SourceMap) :
    mapState f { s with sm := sm } = { mapState f s with sm := sm } := rfl

theorem mapState_get (s : State σ) (i : Nat) : (mapState f s).vars[i]? = (s.vars[i]?).map (mapValue f) := by
  simp [mapState]

theorem mapState_stream (s : State σ) (i : Nat) :
    (mapState f s).stream i = mapOut (mapStream f) (s.stream i) := by
  simp only [State.stream, mapState_get]
  cases s.vars[i]? with
  | none => rfl
  | some v => cases v <;> rfl

theorem mapState_tree (s : State σ) (i : Nat) : (mapState f s).tree i = s.tree i := by
  simp only [State.tree, mapState_get]
  cases s.vars[i]? with
  | none => rfl
  | some v => cases v <;> rfl

theorem mapState_span (s : State σ) (i : Nat) : (mapState f s).span i = s.span i := by
  simp only [State.span, mapState_get]
  cases s.vars[i]? with
  | none => rfl
  | some v => cases v <;> rfl

theorem mapState_delim (s : State σ) (i : Nat) : (mapState f s).delim i = s.delim i := by
  simp only [State.delim, mapState_get]
  cases s.vars[i]? with
  | none => rfl
  | some v => cases v <;> rfl

theorem mapState_trees (s : State σ) (is : List Nat) : (mapState f s).trees is = s.trees is := by
  induction is with
  | nil => rfl
  | cons i is ih => simp only [State.trees, mapState_tree, ih]

theorem mapState_streams (s : State σ) (is : List Nat) :
    (mapState f s).streams is = mapOut (List.map (mapStream f)) (s.streams is) := by
  induction is with
  | nil => rfl
  | cons i is ih =>
    simp only [State.streams, mapState_stream, ih, mapOut_bind, bind_mapOut]
    rfl

variable [Rep σ] [Rep τ]

/-- The representations agree. -/
structure Sim : Prop where
  new : ∀ ts, f (Rep.new ts) = Rep.new ts
  isEmpty : ∀ s, Rep.isEmpty (f s) = Rep.isEmpty s
  intoStream : ∀ s, Rep.intoStream (f s) = Rep.intoStream s
  extendTrees : ∀ s ts, f (Rep.extendTrees s ts) = Rep.extendTrees (f s) ts
  extendStreams : ∀ s ss, f (Rep.extendStreams s ss) = Rep.extendStreams (f s) (ss.map f)

variable {f}

theorem Sim.wnew (h : Sim f) (inside : Bool) : mapStream f (WStream.new inside) = WStream.new inside := by
  cases inside <;> simp [WStream.new, h.new]

theorem Sim.wfromStr [UnicodeTables] (h : Sim f) (inside : Bool) (sm : SourceMap) (src : List Char) :
    (WStream.fromStr (σ := τ) inside sm src).sm = (WStream.fromStr (σ := σ) inside sm src).sm ∧
    (WStream.fromStr (σ := τ) inside sm src).result =
      mapOut (Sum.map id (mapStream f)) (WStream.fromStr (σ := σ) inside sm src).result := by
  cases inside
  · refine ⟨rfl, ?_⟩
    simp only [WStream.fromStr, Bool.false_eq_true, if_false]
    split <;> rfl
  · refine ⟨rfl, ?_⟩
    simp only [WStream.fromStr, if_true, mapOut_bind]
    congr 1
    funext x
    cases x with
    | inl e => rfl
    | inr ts => simp [h.new]

theorem Sim.wisEmpty (h : Sim f) (s : WStream σ) : (mapStream f s).isEmpty = s.isEmpty := by
  cases s <;> simp [WStream.isEmpty, h.isEmpty]

theorem Sim.wdisplay (h : Sim f) (s : WStream σ) : (mapStream f s).display = s.display := by
  cases s <;> simp [WStream.display, h.intoStream]

theorem Sim.wintoCompiler (h : Sim f) (s : WStream σ) : (mapStream f s).intoCompiler = s.intoCompiler := by
  cases s <;> simp [WStream.intoCompiler, h.intoStream]

theorem Sim.wfromTree (h : Sim f) (inside : Bool) (t : Tree) :
    WStream.fromTree inside t = mapOut (mapStream f) (WStream.fromTree inside t) := by
  cases inside
  · rfl
  · simp only [WStream.fromTree, if_true, mapOut_bind, mapOut_ok, mapStream_compiler, mapStream_fallback, h.new]

theorem Sim.wcollectTrees (h : Sim f) (inside : Bool) (ts : List Tree) :
    WStream.collectTrees inside ts = mapOut (mapStream f) (WStream.collectTrees inside ts) := by
  cases inside
  · rfl
  · simp only [WStream.collectTrees, if_true, mapOut_bind, mapOut_ok, mapStream_compiler, mapStream_fallback, h.new]

omit [Rep σ] [Rep τ] in
theorem unwrapNightlies_map (ss : List (WStream σ)) :
    unwrapNightlies (ss.map (mapStream f)) = mapOut (List.map f) (unwrapNightlies ss) := by
  induction ss with
  | nil => rfl
  | cons s ss ih =>
    cases s with
    | compiler s =>
      simp only [List.map_cons, unwrapNightlies, mapStream_compiler, mapStream_fallback, WStream.unwrapNightly, out_bind_ok, ih,
        bind_mapOut, mapOut_bind]
      rfl
    | fallback ts => rfl

omit [Rep σ] [Rep τ] in
theorem unwrapStables_map (ss : List (WStream σ)) :
    unwrapStables (ss.map (mapStream f)) = unwrapStables ss := by
  induction ss with
  | nil => rfl
  | cons s ss ih =>
    cases s with
    | compiler s => rfl
    | fallback ts =>
      simp only [List.map_cons, unwrapStables, mapStream_compiler, mapStream_fallback, WStream.unwrapStable, out_bind_ok, ih]

theorem Sim.wextendStreams (h : Sim f) (s : WStream σ) (ss : List (WStream σ)) :
    (mapStream f s).extendStreams (ss.map (mapStream f)) = mapOut (mapStream f) (s.extendStreams ss) := by
  cases s with
  | compiler s =>
    simp only [mapStream_compiler, mapStream_fallback, WStream.extendStreams, unwrapNightlies_map, bind_mapOut, mapOut_bind, mapOut_ok,
      h.extendStreams]
  | fallback ts =>
    simp only [mapStream_compiler, mapStream_fallback, WStream.extendStreams, unwrapStables_map, mapOut_bind, mapOut_ok]

theorem Sim.wcollectStreams (h : Sim f) (inside : Bool) (ss : List (WStream σ)) :
    WStream.collectStreams inside (ss.map (mapStream f)) =
      mapOut (mapStream f) (WStream.collectStreams inside ss) := by
  cases ss with
  | nil => simp [WStream.collectStreams, h.wnew]
  | cons s ss => exact h.wextendStreams s ss

theorem Sim.wextendTrees (h : Sim f) (s : WStream σ) (ts : List Tree) :
    (mapStream f s).extendTrees ts = mapOut (mapStream f) (s.extendTrees ts) := by
  cases s with
  | compiler s => simp only [mapStream_compiler, mapStream_fallback, WStream.extendTrees, mapOut_bind, mapOut_ok, h.extendTrees]
  | fallback ts => rfl

theorem Sim.wintoIter (h : Sim f) (s : WStream σ) : (mapStream f s).intoIter = mapValue f s.intoIter := by
  cases s <;> simp [WStream.intoIter, h.intoStream]

theorem Sim.wgroupNew (h : Sim f) (d : Delimiter) (s : WStream σ) :
    groupNewW d (mapStream f s) = groupNewW d s := by
  cases s <;> simp [groupNewW, h.intoStream]

theorem Sim.wstream (h : Sim f) (t : Tree) : (t.stream : Option (WStream τ)) = t.stream.map (mapStream f) := by
  cases t <;> simp [Tree.stream, h.new]

theorem typed_map {α β : Type} (k : α → β) (x : Option α) : Out.typed (x.map k) = mapOut k (Out.typed x) := by
  cases x <;> rfl

theorem ofSpan_map (x : Option WSpan) : mapValue f (Value.ofSpan x) = Value.ofSpan x := by
  cases x <;> rfl

theorem ofText_map (x : Option (List Char)) : mapValue f (Value.ofText x) = Value.ofText x := by
  cases x <;> rfl

theorem Sim.wdebug [UnicodeTables] (h : Sim f) (loc alternate : Bool) (v : Value σ) :
    (mapValue f v).debug loc alternate = v.debug loc alternate := by
  cases v with
  | stream s => cases s <;> simp [Value.debug, WStream.debug, h.intoStream]
  | _ => rfl

/-- A call does the same with both representations. -/
theorem Sim.step [UnicodeTables] (h : Sim f) (inside : Bool) (s : State σ) (op : Op) :
    Wrap.step inside (mapState f s) op = mapOut (mapState f) (Wrap.step inside s op) := by
  cases op with
  | fromStr src =>
    obtain ⟨h1, h2⟩ := h.wfromStr inside s.sm src
    simp only [Wrap.step, show (mapState f s).sm = s.sm from rfl, h1, h2, bind_mapOut, mapOut_bind]
    congr 1
    funext x
    cases x <;> simp [mapState_push, mapState_sm, Sum.map]
  | literalFromStr src =>
    simp only [Wrap.step, show (mapState f s).sm = s.sm from rfl, mapOut_bind]
    congr 1
    funext x
    cases x <;> simp [mapState_push, mapState_sm]
  | next i =>
    simp only [Wrap.step, mapState_get]
    cases hv : s.vars[i]? with
    | none => rfl
    | some v =>
      cases v with
      | iterC ts =>
        cases ts with
        | nil => simp [mapState_push]
        | cons t ts =>
          simp only [Option.map_some, mapValue_stream, mapValue_tree, mapValue_span, mapValue_iterC, mapValue_iterF,
      mapValue_error, mapValue_bool, mapValue_text, mapValue_streamC, mapValue_spanC, mapValue_none, mapOut_bind, mapOut_ok, mapState_push, mapState_set]
      | iterF ts =>
        cases ts <;> simp [mapState_push, mapState_set]
      | _ => rfl
  | errorSpan i =>
    simp only [Wrap.step, mapState_get]
    cases hv : s.vars[i]? with
    | none => rfl
    | some v => cases v <;> simp [mapState_push]
  | sizeHint i =>
    simp only [Wrap.step, mapState_get]
    cases hv : s.vars[i]? with
    | none => rfl
    | some v => cases v <;> simp [mapState_push]
  | errorText i =>
    simp only [Wrap.step, mapState_get]
    cases hv : s.vars[i]? with
    | none => rfl
    | some v => cases v <;> simp [mapState_push]
  | debug alternate i =>
    simp only [Wrap.step, mapState_get, typed_map, bind_mapOut, mapOut_bind, mapOut_ok, mapState_push,
      h.wdebug, mapValue_text]
  | clone i =>
    simp only [Wrap.step, mapState_get, typed_map, bind_mapOut, mapOut_bind, mapOut_ok, mapState_push]
  | invalidate =>
    cases inside
    · simp [Wrap.step, mapState_push, mapState_sm, show (mapState f s).sm = s.sm from rfl]
    · simp [Wrap.step]
  | groupStream i =>
    simp only [Wrap.step, mapState_tree, h.wstream, typed_map, bind_mapOut, mapOut_bind, mapOut_ok, mapState_push,
      mapValue_stream, mapValue_tree, mapValue_span, mapValue_iterC, mapValue_iterF,
      mapValue_error, mapValue_bool, mapValue_text, mapValue_streamC, mapValue_spanC, mapValue_none]
  | fromTree i =>
    simp only [Wrap.step, mapState_tree, h.wfromTree (f := f) (τ := τ), bind_mapOut, mapOut_bind, mapOut_ok,
      mapState_push, mapValue_stream, mapValue_tree, mapValue_span, mapValue_iterC, mapValue_iterF,
      mapValue_error, mapValue_bool, mapValue_text, mapValue_streamC, mapValue_spanC, mapValue_none]
  | collectTrees is =>
    simp only [Wrap.step, mapState_trees, h.wcollectTrees (f := f) (τ := τ), bind_mapOut, mapOut_bind, mapOut_ok,
      mapState_push, mapValue_stream, mapValue_tree, mapValue_span, mapValue_iterC, mapValue_iterF,
      mapValue_error, mapValue_bool, mapValue_text, mapValue_streamC, mapValue_spanC, mapValue_none]
  | _ =>
    simp only [Wrap.step, mapState_stream, mapState_tree, mapState_span, mapState_delim, mapState_trees,
      mapState_streams, mapState_sm, ofText_map, mapValue_delim, mapValue_delimiter, mapValue_spacing,
      mapValue_ordering, mapValue_range, mapValue_lineColumn, mapValue_hint, mapValue_bytes, mapValue_conversion,
      bind_mapOut, mapOut_bind, mapOut_ok, mapState_push, mapState_set, mapValue_stream, mapValue_tree, mapValue_span, mapValue_iterC, mapValue_iterF,
      mapValue_error, mapValue_bool, mapValue_text, mapValue_streamC, mapValue_spanC, mapValue_none, h.wnew, h.wisEmpty, h.wdisplay,
      h.wintoCompiler, h.wextendStreams, h.wcollectStreams, h.wextendTrees, h.wintoIter, h.wgroupNew, ofSpan_map,
      h.new, mapStream_compiler, mapStream_fallback, show (mapState f s).sm = s.sm from rfl]

theorem Sim.run [UnicodeTables] (h : Sim f) (s : State σ) (ops : List (Bool × Op)) :
    Wrap.run (mapState f s) ops = mapOut (mapState f) (Wrap.run s ops) := by
  induction ops generalizing s with
  | nil => rfl
  | cons op ops ih =>
    obtain ⟨inside, op⟩ := op
    simp only [Wrap.run, h.step, bind_mapOut, mapOut_bind, ih]

end sim

theorem sim_now (he : ∀ t : CTree, Compiler.enter t ≠ []) : Sim now where
  new := now_new
  isEmpty d := (isEmpty_now he d).symm
  intoStream d := (intoStream_now d).symm
  extendTrees := now_extendTrees
  extendStreams := now_extendStreams

/-- **C56**: every program, in every mode or changing modes, gives with deferred streams what it gives if
everything is appended at once: the same values in all variables, the same panics. The compiler may do
anything, except that a tree is at least one tree of a stream. -/
theorem C56_deferred [UnicodeTables] (he : ∀ t : CTree, Compiler.enter t ≠ []) (s : State Deferred)
    (ops : List (Bool × Op)) :
    Wrap.run (mapState now s) ops = mapOut (mapState now) (Wrap.run s ops) := (sim_now he).run s ops

/-! ## C57 -/

/-- No mismatch, and the result is right. -/
def Good {α : Type} (Q : α → Prop) : Out α → Prop
  | .ok a => Q a
  | .mismatch => False
  | _ => True

theorem Good.bind {α β : Type} {Q : α → Prop} {R : β → Prop} {x : Out α} {g : α → Out β} (h : Good Q x)
    (hg : ∀ a, Q a → Good R (g a)) : Good R (x >>= g) := by
  cases x with
  | ok a => exact hg a h
  | mismatch => exact h
  | _ => trivial

theorem Good.ofRes {α : Type} {Q : α → Prop} {x : Res Unit α} (h : ∀ a, x = .ok a → Q a) :
    Good Q (Out.ofRes x) := by
  cases x <;> first | exact h _ rfl | trivial

theorem Good.ofOption {α : Type} {Q : α → Prop} {x : Option α} (h : ∀ a, x = some a → Q a) :
    Good Q (Out.ofOption x) := by
  cases x <;> first | exact h _ rfl | trivial

theorem Good.typed {α : Type} {Q : α → Prop} {x : Option α} (h : ∀ a, x = some a → Q a) :
    Good Q (Out.typed x) := by
  cases x <;> first | exact h _ rfl | trivial

theorem treeOf_mode {m : Bool} {t : Tree} (h : TreeOf m t) : treeMode t = m := by
  cases h <;> first | assumption | rfl

mutual
theorem treeOf_ofFallback (t : TokenTree) : TreeOf false (Tree.ofFallback t) := by
  cases t with
  | group d ts s => exact .group (treeOf_ofFallbacks ts)
  | ident sym raw s => exact .ident
  | punct ch sp s => exact .punct
  | literal r s => exact .literal
theorem treeOf_ofFallbacks (ts : List TokenTree) : ∀ t ∈ Tree.ofFallbacks ts, TreeOf false t := by
  cases ts with
  | nil => simp [Tree.ofFallbacks]
  | cons t ts =>
    intro u hu
    simp only [Tree.ofFallbacks, List.mem_cons] at hu
    rcases hu with rfl | hu
    · exact treeOf_ofFallback t
    · exact treeOf_ofFallbacks ts u hu
end

theorem treeOf_span {m : Bool} {t : Tree} (h : TreeOf m t) : spanMode t.span = m := by
  cases h with
  | compiler h => cases t <;> simp_all [treeMode, spanMode, Tree.span]
  | _ => rfl

theorem good_setSpan {m : Bool} {t : Tree} {s : WSpan} (h : TreeOf m t) (hs : spanMode s = m) :
    Good (TreeOf m) (t.setSpan s) := by
  cases h with
  | compiler h =>
    cases s with
    | fallback s => simp [spanMode] at hs
    | compiler s =>
      cases t <;> simp [treeMode] at h <;> exact .compiler rfl
  | group h =>
    cases s with
    | fallback s => exact .group h
    | compiler s => simp [spanMode] at hs
  | ident =>
    cases s with
    | fallback s => exact .ident
    | compiler s => simp [spanMode] at hs
  | punct =>
    cases s with
    | fallback s => exact .punct
    | compiler s => simp [spanMode] at hs
  | literal =>
    cases s with
    | fallback s => exact .literal
    | compiler s => simp [spanMode] at hs

theorem good_intoCompilerToken {t : Tree} (h : TreeOf true t) : Good (fun _ => True) (intoCompilerToken t) := by
  cases h with
  | compiler h =>
    cases t with
    | punct ch sp s =>
      cases s with
      | compiler s => trivial
      | fallback s => simp [treeMode, spanMode] at h
    | _ => first | trivial | simp [treeMode] at h

theorem good_intoCompilerTokens {ts : List Tree} (h : ∀ t ∈ ts, TreeOf true t) :
    Good (fun _ => True) (intoCompilerTokens ts) := by
  induction ts with
  | nil => trivial
  | cons t ts ih =>
    exact (good_intoCompilerToken (h t (by simp))).bind (fun _ _ =>
      (ih (fun t ht => h t (by simp [ht]))).bind (fun _ _ => trivial))

theorem treeOf_pushTree {t : Tree} (h : TreeOf false t) : ∀ u ∈ pushTree t, TreeOf false u := by
  cases h with
  | literal =>
    unfold pushTree
    split
    · split
      · intro u hu
        simp only [List.mem_cons, List.not_mem_nil, or_false] at hu
        rcases hu with rfl | rfl
        · exact .punct
        · exact .literal
      · intro u hu
        simp only [List.mem_cons, List.not_mem_nil, or_false] at hu
        subst hu
        exact .literal
    · rename_i h; exact absurd rfl (h _ _)
  | ident => simp [pushTree, TreeOf.ident]
  | punct => simp [pushTree, TreeOf.punct]
  | group h => simp [pushTree, TreeOf.group h]

section states
variable {σ : Type}

/-- All values are of mode `m`. -/
def AllOf (m : Bool) (s : State σ) : Prop := ∀ v ∈ s.vars, ValueOf m v

theorem AllOf.push {m : Bool} {s : State σ} (h : AllOf m s) {v : Value σ} (hv : ValueOf m v) :
    AllOf m (s.push v) := by
  intro w hw
  simp only [State.push, List.mem_append, List.mem_singleton] at hw
  rcases hw with hw | rfl
  · exact h w hw
  · exact hv

theorem AllOf.set {m : Bool} {s : State σ} (h : AllOf m s) {v : Value σ} (hv : ValueOf m v) (i : Nat) :
    AllOf m (s.set i v) := by
  intro w hw
  rcases List.mem_or_eq_of_mem_set hw with hw | rfl
  · exact h w hw
  · exact hv

theorem AllOf.get {m : Bool} {s : State σ} (h : AllOf m s) {i : Nat} {v : Value σ} (hv : s.vars[i]? = some v) :
    ValueOf m v := h v (List.mem_of_getElem? hv)

/-- Everything in the stream is of mode `m`. -/
def StreamOf (m : Bool) (s : WStream σ) : Prop := ValueOf m (.stream s)

theorem AllOf.stream {m : Bool} {s : State σ} (h : AllOf m s) (i : Nat) : Good (StreamOf m) (s.stream i) := by
  unfold State.stream
  split
  · rename_i hv; exact h.get hv
  · trivial

theorem AllOf.tree {m : Bool} {s : State σ} (h : AllOf m s) (i : Nat) : Good (TreeOf m) (s.tree i) := by
  unfold State.tree
  split
  · rename_i hv; exact h.get hv
  · trivial

theorem AllOf.span {m : Bool} {s : State σ} (h : AllOf m s) (i : Nat) :
    Good (fun x => spanMode x = m) (s.span i) := by
  unfold State.span
  split
  · rename_i hv; exact h.get hv
  · trivial

theorem AllOf.delim {m : Bool} {s : State σ} (h : AllOf m s) (i : Nat) :
    Good (fun x => delimMode x = m) (s.delim i) := by
  unfold State.delim
  split
  · rename_i hv; exact h.get hv
  · trivial

theorem AllOf.trees {m : Bool} {s : State σ} (h : AllOf m s) (is : List Nat) :
    Good (fun ts => ∀ t ∈ ts, TreeOf m t) (s.trees is) := by
  induction is with
  | nil => simp [State.trees, Good]
  | cons i is ih =>
    refine (h.tree i).bind (fun t ht => ih.bind (fun ts hts => ?_))
    simp only [Good, List.mem_cons, forall_eq_or_imp]
    exact ⟨ht, hts⟩

theorem AllOf.streams {m : Bool} {s : State σ} (h : AllOf m s) (is : List Nat) :
    Good (fun ts => ∀ t ∈ ts, StreamOf m t) (s.streams is) := by
  induction is with
  | nil => simp [State.streams, Good]
  | cons i is ih =>
    refine (h.stream i).bind (fun t ht => ih.bind (fun ts hts => ?_))
    simp only [Good, List.mem_cons, forall_eq_or_imp]
    exact ⟨ht, hts⟩

theorem good_unwrapNightlies {ss : List (WStream σ)} (h : ∀ s ∈ ss, StreamOf true s) :
    Good (fun _ => True) (unwrapNightlies ss) := by
  induction ss with
  | nil => trivial
  | cons s ss ih =>
    have hs := h s (by simp)
    cases s with
    | compiler s => exact (ih (fun t ht => h t (by simp [ht]))).bind (fun _ _ => trivial)
    | fallback ts => simp [StreamOf, ValueOf] at hs

theorem good_unwrapStables {ss : List (WStream σ)} (h : ∀ s ∈ ss, StreamOf false s) :
    Good (fun l => ∀ t ∈ l.flatten, TreeOf false t) (unwrapStables ss) := by
  induction ss with
  | nil => simp [unwrapStables, Good]
  | cons s ss ih =>
    have hs := h s (by simp)
    cases s with
    | compiler s => simp [StreamOf, ValueOf] at hs
    | fallback ts =>
      refine (ih (fun t ht => h t (by simp [ht]))).bind (fun l hl => ?_)
      intro t ht
      simp only [List.flatten_cons, List.mem_append] at ht
      exact ht.elim (hs.2 t) (hl t)

variable [Rep σ]

theorem good_extendStreams {m : Bool} {s : WStream σ} {ss : List (WStream σ)} (h : StreamOf m s)
    (hs : ∀ s ∈ ss, StreamOf m s) : Good (StreamOf m) (s.extendStreams ss) := by
  cases s with
  | compiler s =>
    simp only [StreamOf, ValueOf] at h
    subst h
    exact (good_unwrapNightlies hs).bind (fun _ _ => rfl)
  | fallback ts =>
    obtain ⟨rfl, h⟩ := h
    refine (good_unwrapStables hs).bind (fun l hl => ⟨rfl, ?_⟩)
    intro t ht
    simp only [List.mem_append] at ht
    exact ht.elim (h t) (hl t)

theorem streamOf_new (m : Bool) : StreamOf m (WStream.new m : WStream σ) := by
  cases m
  · exact ⟨rfl, by simp⟩
  · exact rfl

theorem treeOf_pushTrees {ts : List Tree} (h : ∀ t ∈ ts, TreeOf false t) :
    ∀ u ∈ ts.flatMap pushTree, TreeOf false u := by
  intro u hu
  obtain ⟨t, ht, hu⟩ := List.mem_flatMap.mp hu
  exact treeOf_pushTree (h t ht) u hu

theorem good_extendTrees {m : Bool} {s : WStream σ} {ts : List Tree} (h : StreamOf m s)
    (hs : ∀ t ∈ ts, TreeOf m t) : Good (StreamOf m) (s.extendTrees ts) := by
  cases s with
  | compiler s =>
    simp only [StreamOf, ValueOf] at h
    subst h
    exact (good_intoCompilerTokens hs).bind (fun _ _ => rfl)
  | fallback us =>
    obtain ⟨rfl, h⟩ := h
    refine ⟨rfl, ?_⟩
    intro t ht
    simp only [List.mem_append] at ht
    exact ht.elim (h t) (treeOf_pushTrees hs t)

theorem good_collectTrees {m : Bool} {ts : List Tree} (hs : ∀ t ∈ ts, TreeOf m t) :
    Good (StreamOf m) (WStream.collectTrees m ts : Out (WStream σ)) := by
  cases m
  · exact ⟨rfl, treeOf_pushTrees hs⟩
  · exact (good_intoCompilerTokens hs).bind (fun _ _ => rfl)

theorem good_fromTree {m : Bool} {t : Tree} (hs : TreeOf m t) :
    Good (StreamOf m) (WStream.fromTree m t : Out (WStream σ)) := by
  cases m
  · exact ⟨rfl, treeOf_pushTree hs⟩
  · exact (good_intoCompilerToken hs).bind (fun _ _ => rfl)

theorem good_collectStreams {m : Bool} {ss : List (WStream σ)} (hs : ∀ s ∈ ss, StreamOf m s) :
    Good (StreamOf m) (WStream.collectStreams m ss) := by
  cases ss with
  | nil => exact streamOf_new m
  | cons s ss => exact good_extendStreams (hs s (by simp)) (fun t ht => hs t (by simp [ht]))

theorem good_resolvedAt {m : Bool} {a b : WSpan} (ha : spanMode a = m) (hb : spanMode b = m) :
    Good (fun x => spanMode x = m) (a.resolvedAt b) := by
  cases a <;> cases b <;> simp_all [spanMode, WSpan.resolvedAt, Good]

theorem good_locatedAt {m : Bool} {a b : WSpan} (ha : spanMode a = m) (hb : spanMode b = m) :
    Good (fun x => spanMode x = m) (a.locatedAt b) := by
  cases a <;> cases b <;> simp_all [spanMode, WSpan.locatedAt, Good]

theorem good_join {m : Bool} {sm : SourceMap} {a b : WSpan} (ha : spanMode a = m) (hb : spanMode b = m) :
    Good (fun x => ∀ y, x = some y → spanMode y = m) (WSpan.join sm a b) := by
  cases a with
  | compiler a =>
    cases b with
    | compiler b =>
      intro y hy
      split at hy
      · obtain ⟨z, -, rfl⟩ := Option.map_eq_some_iff.mp hy
        exact ha
      · cases hy
    | fallback b => intro y hy; simp at hy
  | fallback a =>
    cases b with
    | compiler b => intro y hy; simp at hy
    | fallback b =>
      refine (Good.ofRes (Q := fun _ => True) (fun _ _ => trivial)).bind (fun j _ => ?_)
      intro y hy
      obtain ⟨z, -, rfl⟩ := Option.map_eq_some_iff.mp hy
      exact ha

theorem valueOf_ofSpan {m : Bool} {x : Option WSpan} (h : ∀ y, x = some y → spanMode y = m) :
    ValueOf m (Value.ofSpan x : Value σ) := by
  cases x with
  | none => trivial
  | some y => exact h y rfl

theorem valueOf_ofText {m : Bool} (x : Option (List Char)) : ValueOf m (Value.ofText x : Value σ) := by
  cases x <;> trivial

theorem good_ident {m : Bool} {a b : Tree} (ha : TreeOf m a) (hb : TreeOf m b) :
    Good (fun _ => True) (a.identEq b) := by
  have ha := treeOf_mode ha
  have hb := treeOf_mode hb
  subst ha
  cases a <;> cases b <;> simp_all [treeMode, Tree.identEq, Good]

theorem good_subspan {m : Bool} {t : Tree} (h : TreeOf m t) (a b : Bound) :
    Good (fun x => ∀ y, x = some y → spanMode y = m) (t.subspan a b) := by
  have h := treeOf_mode h
  subst h
  cases t <;> first | trivial | skip
  all_goals
    intro y hy
    try split at hy
  all_goals first
    | cases hy; done
    | obtain ⟨z, -, rfl⟩ := Option.map_eq_some_iff.mp hy; rfl

theorem callSite_mode (m : Bool) : spanMode (WSpan.callSite m) = m := by cases m <;> rfl
theorem defSite_mode (m : Bool) : spanMode (WSpan.defSite m) = m := by cases m <;> rfl
theorem mixedSite_mode (m : Bool) : spanMode (WSpan.mixedSite m) = m := by cases m <;> rfl

theorem good_stream {m : Bool} {t : Tree} (h : TreeOf m t) :
    ∀ s, (t.stream : Option (WStream σ)) = some s → StreamOf m s := by
  cases h with
  | compiler h =>
    cases t <;> simp [treeMode, Tree.stream] at h ⊢
    rfl
  | group h => intro s hs; simp only [Tree.stream, Option.some.injEq] at hs; subst hs; exact ⟨rfl, h⟩
  | _ => simp [Tree.stream]

theorem good_spanOpen {m : Bool} {t : Tree} (h : TreeOf m t) : ∀ s, t.spanOpen = some s → spanMode s = m := by
  have h := treeOf_mode h
  subst h
  cases t <;> simp [Tree.spanOpen, treeMode, spanMode]

theorem good_spanClose {m : Bool} {t : Tree} (h : TreeOf m t) : ∀ s, t.spanClose = some s → spanMode s = m := by
  have h := treeOf_mode h
  subst h
  cases t <;> simp [Tree.spanClose, treeMode, spanMode]

theorem good_delimSpan {m : Bool} {t : Tree} (h : TreeOf m t) : ∀ d, t.delimSpan = some d → delimMode d = m := by
  have h := treeOf_mode h
  subst h
  cases t <;> simp [Tree.delimSpan, treeMode, delimMode]

theorem good_groupNew {m : Bool} {d : Delimiter} {s : WStream σ} (h : StreamOf m s) :
    TreeOf m (groupNewW d s) := by
  cases s with
  | compiler s => simp only [StreamOf, ValueOf] at h; subst h; exact .compiler rfl
  | fallback ts => obtain ⟨rfl, h⟩ := h; exact .group h

theorem good_intoIter {m : Bool} {s : WStream σ} (h : StreamOf m s) : ValueOf m s.intoIter := by
  cases s with
  | compiler s => exact h
  | fallback ts => exact h

variable [UnicodeTables]

theorem good_identNew {m : Bool} {t : List Char} {s : WSpan} (h : spanMode s = m) :
    Good (TreeOf m) (identNewW t s) := by
  cases s with
  | compiler s =>
    simp only [spanMode] at h
    subst h
    exact (Good.ofOption (Q := fun _ => True) (fun _ _ => trivial)).bind (fun _ _ => .compiler rfl)
  | fallback s =>
    simp only [spanMode] at h
    subst h
    exact (Good.ofRes (Q := fun _ => True) (fun _ _ => trivial)).bind (fun _ _ => treeOf_ofFallback _)

theorem good_identNewRaw {m : Bool} {t : List Char} {s : WSpan} (h : spanMode s = m) :
    Good (TreeOf m) (identNewRawW t s) := by
  cases s with
  | compiler s =>
    simp only [spanMode] at h
    subst h
    exact (Good.ofOption (Q := fun _ => True) (fun _ _ => trivial)).bind (fun _ _ => .compiler rfl)
  | fallback s =>
    simp only [spanMode] at h
    subst h
    exact (Good.ofRes (Q := fun _ => True) (fun _ _ => trivial)).bind (fun _ _ => treeOf_ofFallback _)

/-- A result of a parser is of mode `m`. -/
def ParsedOf {α : Type} (m : Bool) (Q : α → Prop) : LexError ⊕ α → Prop
  | .inl e => ValueOf m (.error e : Value Unit)
  | .inr a => Q a

theorem good_fromStr2 {ε α β : Type} (x : Res ε β) (parse : List Char → Outcome CompilerTypes.Error α)
    (src : List Char) :
    Good (ParsedOf true (fun _ => True)) (fromStr2 x parse src).1 := by
  cases x <;> try trivial
  unfold fromStr2
  cases parse src <;> trivial

theorem good_fromStr (m : Bool) (sm : SourceMap) (src : List Char) :
    Good (ParsedOf m (StreamOf m)) (WStream.fromStr m sm src : Parsed (WStream σ)).result := by
  cases m
  · simp only [WStream.fromStr, Bool.false_eq_true, if_false]
    cases (TokenStream.fromStr sm src).2 with
    | ok ts => exact ⟨rfl, treeOf_ofFallbacks ts⟩
    | err s => exact rfl
    | _ => trivial
  · simp only [WStream.fromStr, if_true]
    refine (good_fromStr2 _ _ _).bind (fun r h => ?_)
    cases r with
    | inl e => exact h
    | inr a => exact rfl

theorem good_literalFromStr (m : Bool) (sm : SourceMap) (src : List Char) :
    Good (ParsedOf m (TreeOf m)) (literalFromStr m sm src).result := by
  cases m
  · simp only [literalFromStr, Bool.false_eq_true, if_false]
    cases (Literal.fromStr sm src).2 with
    | ok ts => exact .literal
    | err s => exact rfl
    | _ => trivial
  · simp only [literalFromStr, if_true]
    refine (good_fromStr2 _ _ _).bind (fun r h => ?_)
    cases r with
    | inl e => exact h
    | inr a => exact .compiler rfl

theorem AllOf.sm {m : Bool} {s : State σ} (h : AllOf m s) (sm : SourceMap) : AllOf m { s with sm := sm } := h

theorem valueOf_error {m : Bool} {e : LexError} (h : ValueOf m (.error e : Value Unit)) :
    ValueOf m (.error e : Value σ) := by
  cases e <;> exact h

theorem errorSpan_mode {m : Bool} {e : LexError} (h : ValueOf m (.error e : Value σ)) :
    spanMode (e.span m) = m := by
  cases e with
  | fallback s => simp only [ValueOf] at h; subst h; rfl
  | _ => exact callSite_mode m

theorem good_literalUnchecked (r : List Char) : Good (TreeOf true) (Wrap.literalUnchecked true r) := by
  unfold Wrap.literalUnchecked
  simp only [if_true]
  split <;> first | exact TreeOf.compiler rfl | trivial

theorem good_ofCompilerTokens (ts : List CTree) : Good (fun _ => True) (ofCompilerTokens ts) := by
  induction ts with
  | nil => trivial
  | cons t ts ih =>
    refine Good.bind (Q := fun _ => True) ?_ (fun _ _ => ih.bind (fun _ _ => trivial))
    cases t with
    | punct ch sp s => simp only [ofCompilerToken]; split <;> trivial
    | _ => trivial

theorem good_debug (loc alternate : Bool) (v : Value σ) : Good (fun _ => True) (v.debug loc alternate) := by
  cases v with
  | iterC ts => exact (good_ofCompilerTokens ts).bind (fun _ _ => trivial)
  | _ => trivial

/-- One call with values of one mode. -/
theorem good_step {m : Bool} {s : State σ} (h : AllOf m s) (op : Op) (hi : m = false → ¬ Imports op) :
    Good (AllOf m) (Wrap.step m s op) := by
  cases op with
  | new => exact h.push (streamOf_new m)
  | fromStr src =>
    refine (good_fromStr m s.sm src).bind (fun r hr => ?_)
    cases r with
    | inl e => exact (h.sm _).push (valueOf_error hr)
    | inr x => exact (h.sm _).push hr
  | fromCompiler ts =>
    cases m
    · exact absurd trivial (hi rfl)
    · exact h.push rfl
  | spanFromCompiler x =>
    cases m
    · exact absurd trivial (hi rfl)
    · exact h.push rfl
  | clone i => exact (Good.typed (fun v hv => h.get hv)).bind (fun v hv => h.push hv)
  | isEmpty i => exact (h.stream i).bind (fun v hv => h.push trivial)
  | display i => exact (h.stream i).bind (fun v hv => h.push trivial)
  | intoCompiler i =>
    refine (h.stream i).bind (fun v hv => Good.bind (Q := fun _ => True) ?_ (fun _ _ => h.push trivial))
    cases v with
    | compiler s => trivial
    | fallback ts => unfold WStream.intoCompiler; dsimp only; split <;> trivial
  | fromTree i => exact (h.tree i).bind (fun v hv => (good_fromTree hv).bind (fun _ hx => h.push hx))
  | collectTrees is => exact (h.trees is).bind (fun v hv => (good_collectTrees hv).bind (fun _ hx => h.push hx))
  | collectStreams is =>
    exact (h.streams is).bind (fun v hv => (good_collectStreams hv).bind (fun _ hx => h.push hx))
  | extendTrees i js =>
    exact (h.stream i).bind (fun v hv => (h.trees js).bind (fun w hw =>
      (good_extendTrees hv hw).bind (fun _ hx => h.set hx i)))
  | extendStreams i js =>
    exact (h.stream i).bind (fun v hv => (h.streams js).bind (fun w hw =>
      (good_extendStreams hv hw).bind (fun _ hx => h.set hx i)))
  | intoIter i => exact (h.stream i).bind (fun v hv => h.push (good_intoIter hv))
  | next i =>
    simp only [Wrap.step]
    split
    · exact h.push trivial
    · rename_i t ts hv
      have := h.get hv
      refine Good.bind (Q := TreeOf m) ?_ (fun x hx => (h.set (v := .iterC ts) this i).push (v := .tree x) hx)
      simp only [ValueOf] at this
      subst this
      cases t with
      | punct ch sp s => simp only [ofCompilerToken]; split <;> first | exact .compiler rfl | trivial
      | _ => exact .compiler rfl
    · exact h.push trivial
    · rename_i t ts hv
      obtain ⟨rfl, this⟩ := h.get hv
      exact (h.set (v := .iterF ts) ⟨rfl, fun u hu => this u (by simp [hu])⟩ i).push (this t (by simp))
    · trivial
  | callSite => exact h.push (callSite_mode m)
  | mixedSite => exact h.push (mixedSite_mode m)
  | resolvedAt i j =>
    exact (h.span i).bind (fun a ha => (h.span j).bind (fun b hb =>
      (good_resolvedAt ha hb).bind (fun _ hx => h.push hx)))
  | locatedAt i j =>
    exact (h.span i).bind (fun a ha => (h.span j).bind (fun b hb =>
      (good_locatedAt ha hb).bind (fun _ hx => h.push hx)))
  | unwrap i =>
    refine (h.span i).bind (fun a ha => Good.bind (Q := fun _ => True) ?_ (fun _ _ => h.push trivial))
    cases a <;> trivial
  | join i j =>
    exact (h.span i).bind (fun a ha => (h.span j).bind (fun b hb =>
      (good_join ha hb).bind (fun _ hx => h.push (valueOf_ofSpan hx))))
  | spanEq i j => exact (h.span i).bind (fun a ha => (h.span j).bind (fun b hb => h.push trivial))
  | groupNew d i => exact (h.stream i).bind (fun v hv => h.push (good_groupNew hv))
  | groupStream i =>
    exact (h.tree i).bind (fun v hv => (Good.typed (good_stream hv)).bind (fun _ hx => h.push hx))
  | span i => exact (h.tree i).bind (fun v hv => h.push (treeOf_span hv))
  | spanOpen i =>
    exact (h.tree i).bind (fun v hv => (Good.typed (good_spanOpen hv)).bind (fun _ hx => h.push hx))
  | spanClose i =>
    exact (h.tree i).bind (fun v hv => (Good.typed (good_spanClose hv)).bind (fun _ hx => h.push hx))
  | setSpan i j =>
    exact (h.tree i).bind (fun a ha => (h.span j).bind (fun b hb =>
      (good_setSpan ha hb).bind (fun x hx => h.set (v := .tree x) hx i)))
  | identNew t i => exact (h.span i).bind (fun a ha => (good_identNew ha).bind (fun _ hx => h.push hx))
  | identNewRaw t i => exact (h.span i).bind (fun a ha => (good_identNewRaw ha).bind (fun _ hx => h.push hx))
  | identEq i j =>
    exact (h.tree i).bind (fun a ha => (h.tree j).bind (fun b hb =>
      (good_ident ha hb).bind (fun _ _ => h.push trivial)))
  | identEqStr i t =>
    refine (h.tree i).bind (fun a ha => Good.bind (Q := fun _ => True) ?_ (fun _ _ => h.push trivial))
    cases a <;> first | trivial | exact Good.ofRes (fun _ _ => trivial)
  | punctNew ch sp =>
    refine Good.bind (Q := TreeOf m) ?_ (fun x hx => h.push (v := .tree x) hx)
    unfold Wrap.punctNew
    split
    · cases m
      · exact .punct
      · exact .compiler rfl
    · trivial
  | literalNew r =>
    refine h.push ?_
    cases m
    · exact TreeOf.literal
    · exact TreeOf.compiler rfl
  | literalFromStr src =>
    refine (good_literalFromStr m s.sm src).bind (fun r hr => ?_)
    cases r with
    | inl e => exact (h.sm _).push (valueOf_error hr)
    | inr x => exact (h.sm _).push hr
  | subspan i a b =>
    exact (h.tree i).bind (fun v hv => (good_subspan hv a b).bind (fun _ hx => h.push (valueOf_ofSpan hx)))
  | errorSpan i =>
    simp only [Wrap.step]
    split
    · rename_i hv; exact h.push (errorSpan_mode (h.get hv))
    · trivial
  | invalidate =>
    cases m
    · exact (h.sm _).push trivial
    · trivial
  | defSite => exact h.push (defSite_mode m)
  | byteRange i =>
    refine (h.span i).bind (fun a ha => Good.bind (Q := fun _ => True) ?_ (fun _ _ => (h.sm _).push trivial))
    cases a <;> first | trivial | exact Good.ofRes (fun _ _ => trivial)
  | start i =>
    refine (h.span i).bind (fun a ha => Good.bind (Q := fun _ => True) ?_ (fun _ _ => h.push trivial))
    cases a <;> first | trivial | exact Good.ofRes (fun _ _ => trivial)
  | end_ i =>
    refine (h.span i).bind (fun a ha => Good.bind (Q := fun _ => True) ?_ (fun _ _ => h.push trivial))
    cases a <;> first | trivial | exact Good.ofRes (fun _ _ => trivial)
  | file i =>
    refine (h.span i).bind (fun a ha => Good.bind (Q := fun _ => True) ?_ (fun _ _ => h.push trivial))
    cases a <;> first | trivial | exact Good.ofRes (fun _ _ => trivial)
  | localFile i => exact (h.span i).bind (fun a ha => h.push (valueOf_ofText _))
  | sourceText i =>
    refine (h.span i).bind (fun a ha =>
      Good.bind (Q := fun _ => True) ?_ (fun _ _ => (h.sm _).push (valueOf_ofText _)))
    cases a <;> first | trivial | exact Good.ofRes (fun _ _ => trivial)
  | delimiter i =>
    exact (h.tree i).bind (fun v hv =>
      (Good.typed (Q := fun _ => True) (fun _ _ => trivial)).bind (fun _ _ => h.push trivial))
  | delimSpan i =>
    exact (h.tree i).bind (fun v hv => (Good.typed (good_delimSpan hv)).bind (fun x hx => h.push (v := .delim x) hx))
  | delimJoin i => exact (h.delim i).bind (fun v hv => h.push (v := .span v.join) (by cases v <;> exact hv))
  | delimOpen i => exact (h.delim i).bind (fun v hv => h.push (v := .span v.open_) (by cases v <;> exact hv))
  | delimClose i => exact (h.delim i).bind (fun v hv => h.push (v := .span v.close) (by cases v <;> exact hv))
  | treeText i => exact (h.tree i).bind (fun v hv => h.push trivial)
  | asChar i =>
    exact (h.tree i).bind (fun v hv =>
      (Good.typed (Q := fun _ => True) (fun _ _ => trivial)).bind (fun _ _ => h.push trivial))
  | spacing i =>
    exact (h.tree i).bind (fun v hv =>
      (Good.typed (Q := fun _ => True) (fun _ _ => trivial)).bind (fun _ _ => h.push trivial))
  | identCmp i j =>
    exact (h.tree i).bind (fun v hv => (h.tree j).bind (fun w hw =>
      (Good.typed (Q := fun _ => True) (fun _ _ => trivial)).bind (fun _ _ => h.push trivial)))
  | identHash i =>
    exact (h.tree i).bind (fun v hv =>
      (Good.typed (Q := fun _ => True) (fun _ _ => trivial)).bind (fun _ _ => h.push trivial))
  | literalUnchecked r =>
    refine Good.bind (Q := TreeOf m) ?_ (fun x hx => h.push (v := .tree x) hx)
    unfold Wrap.literalUnchecked
    cases m
    · exact .literal
    · simp only [if_true]
      split <;> first | exact TreeOf.compiler rfl | trivial
  | sizeHint i =>
    simp only [Wrap.step]
    split <;> first | exact h.push trivial | trivial
  | debug alternate i =>
    exact (Good.typed (Q := fun _ => True) (fun _ _ => trivial)).bind (fun v _ =>
      (good_debug true alternate v).bind (fun _ _ => h.push trivial))
  | debugIdent alternate i =>
    exact (h.tree i).bind (fun v hv =>
      (Good.typed (Q := fun _ => True) (fun _ _ => trivial)).bind (fun _ _ => h.push trivial))
  | errorText i =>
    simp only [Wrap.step]
    split <;> first | exact h.push trivial | trivial
  | value k i =>
    exact (h.tree i).bind (fun v hv =>
      (Good.typed (Q := fun _ => True) (fun _ _ => trivial)).bind (fun _ _ =>
        (Good.ofRes (Q := fun _ => True) (fun _ _ => trivial)).bind (fun _ _ => h.push trivial)))
  | byteCharacter b =>
    refine Good.bind (Q := TreeOf m) ?_ (fun x hx => h.push (v := .tree x) hx)
    unfold byteCharacterW
    cases m
    · exact .literal
    · simp only [if_true]
      split
      · exact TreeOf.compiler rfl
      · exact good_literalUnchecked _
  | cString bs =>
    refine Good.bind (Q := TreeOf m) ?_ (fun x hx => h.push (v := .tree x) hx)
    unfold cStringW
    cases m
    · exact (Good.ofRes (Q := fun _ => True) (fun _ _ => trivial)).bind (fun _ _ => .literal)
    · simp only [if_true]
      split
      · exact TreeOf.compiler rfl
      · exact (Good.ofRes (Q := fun _ => True) (fun _ _ => trivial)).bind (fun _ _ => good_literalUnchecked _)

theorem good_run {m : Bool} {s : State σ} (h : AllOf m s) {ops : List (Bool × Op)}
    (hm : ∀ x ∈ ops, x.1 = m) (hi : m = false → ∀ x ∈ ops, ¬ Imports x.2) :
    Good (AllOf m) (Wrap.run s ops) := by
  induction ops generalizing s with
  | nil => exact h
  | cons x ops ih =>
    obtain ⟨b, op⟩ := x
    have hb := hm (b, op) (by simp)
    dsimp only at hb
    subst hb
    refine (good_step h op (fun e => hi e (b, op) (by simp))).bind (fun t ht => ?_)
    exact ih ht (fun x hx => hm x (by simp [hx])) (fun e x hx => hi e x (by simp [hx]))

/-- **C57.** Values of one mode are never mixed: a program whose variables are all of mode `m` (the
fallback's, if nothing is imported from the compiler), and whose calls all see mode `m`, has no mismatch,
and its variables stay of mode `m`, with all the trees inside. -/
theorem C57_homogeneous {m : Bool} {s : State σ} {ops : List (Bool × Op)} (h : ∀ v ∈ s.vars, ValueOf m v)
    (hm : ∀ x ∈ ops, x.1 = m) (hi : m = false → ∀ x ∈ ops, ¬ Imports x.2) :
    Wrap.run s ops ≠ .mismatch ∧ ∀ t, Wrap.run s ops = .ok t → ∀ v ∈ t.vars, ValueOf m v := by
  have := good_run h hm hi
  constructor
  · intro e; rw [e] at this; exact this
  · intro t e; rw [e] at this; exact this

/-! ### Exactly the mixed calls panic -/

omit [UnicodeTables] [Rep σ]

theorem bind_mismatch {α β : Type} {x : Out α} {g : α → Out β} :
    (x >>= g) = .mismatch ↔ x = .mismatch ∨ ∃ a, x = .ok a ∧ g a = .mismatch := by
  cases x with
  | ok a =>
    constructor
    · intro h; exact .inr ⟨a, rfl, h⟩
    · rintro (h | ⟨b, h, hg⟩)
      · simp at h
      · injection h with h; subst h; exact hg
  | mismatch => exact ⟨fun _ => .inl rfl, fun _ => rfl⟩
  | panic => exact ⟨fun h => (by cases h), by rintro (h | ⟨_, h, _⟩) <;> cases h⟩
  | diverge => exact ⟨fun h => (by cases h), by rintro (h | ⟨_, h, _⟩) <;> cases h⟩
  | ill => exact ⟨fun h => (by cases h), by rintro (h | ⟨_, h, _⟩) <;> cases h⟩

theorem ok_mismatch {α : Type} (a : α) : (Out.ok a = .mismatch) ↔ False := by simp
theorem ofRes_mismatch {α : Type} (x : Res Unit α) : (Out.ofRes x = .mismatch) ↔ False := by
  cases x <;> simp [Out.ofRes]
theorem ofOption_mismatch {α : Type} (x : Option α) : (Out.ofOption x = .mismatch) ↔ False := by
  cases x <;> simp [Out.ofOption]
theorem typed_mismatch {α : Type} (x : Option α) : (Out.typed x = .mismatch) ↔ False := by
  cases x <;> simp [Out.typed]

theorem stream_mismatch (s : State σ) (i : Nat) : (s.stream i = .mismatch) ↔ False := by
  unfold State.stream; split <;> simp
theorem tree_mismatch (s : State σ) (i : Nat) : (s.tree i = .mismatch) ↔ False := by
  unfold State.tree; split <;> simp
theorem span_mismatch (s : State σ) (i : Nat) : (s.span i = .mismatch) ↔ False := by
  unfold State.span; split <;> simp

theorem delim_mismatch (s : State σ) (i : Nat) : (s.delim i = .mismatch) ↔ False := by
  unfold State.delim; split <;> simp

theorem stream_ok {s : State σ} {i : Nat} {x : WStream σ} :
    s.stream i = .ok x ↔ s.vars[i]? = some (.stream x) := by
  unfold State.stream
  split
  · rename_i h; simp [h]
  · rename_i h; constructor
    · intro e; cases e
    · intro e; exact absurd e (h x)
theorem tree_ok {s : State σ} {i : Nat} {x : Tree} : s.tree i = .ok x ↔ s.vars[i]? = some (.tree x) := by
  unfold State.tree
  split
  · rename_i h; simp [h]
  · rename_i h; constructor
    · intro e; cases e
    · intro e; exact absurd e (h x)
theorem span_ok {s : State σ} {i : Nat} {x : WSpan} : s.span i = .ok x ↔ s.vars[i]? = some (.span x) := by
  unfold State.span
  split
  · rename_i h; simp [h]
  · rename_i h; constructor
    · intro e; cases e
    · intro e; exact absurd e (h x)

theorem trees_mismatch (s : State σ) (is : List Nat) : (s.trees is = .mismatch) ↔ False := by
  induction is with
  | nil => simp [State.trees]
  | cons i is ih => simp [State.trees, bind_mismatch, tree_mismatch, ih]
theorem streams_mismatch (s : State σ) (is : List Nat) : (s.streams is = .mismatch) ↔ False := by
  induction is with
  | nil => simp [State.streams]
  | cons i is ih => simp [State.streams, bind_mismatch, stream_mismatch, ih]

theorem bind_ok {α β : Type} {x : Out α} {g : α → Out β} {b : β} :
    (x >>= g) = .ok b ↔ ∃ a, x = .ok a ∧ g a = .ok b := by
  cases x with
  | ok a =>
    constructor
    · intro h; exact ⟨a, rfl, h⟩
    · rintro ⟨b, h, hg⟩; injection h with h; subst h; exact hg
  | _ => exact ⟨fun h => (by cases h), by rintro ⟨_, h, _⟩; cases h⟩

theorem trees_ok {s : State σ} {is : List Nat} {ts : List Tree} :
    s.trees is = .ok ts ↔ is.map (fun i => s.vars[i]?) = ts.map (fun t => some (.tree t)) := by
  induction is generalizing ts with
  | nil => cases ts <;> simp [State.trees]
  | cons i is ih =>
    simp only [State.trees, bind_ok, tree_ok, ih]
    constructor
    · rintro ⟨t, h1, us, h2, h⟩
      injection h with h; subst h
      simp [h1, h2]
    · intro h
      cases ts with
      | nil => simp at h
      | cons t ts =>
        simp only [List.map_cons, List.cons.injEq] at h
        exact ⟨t, h.1, ts, h.2, rfl⟩

theorem streams_ok {s : State σ} {is : List Nat} {ts : List (WStream σ)} :
    s.streams is = .ok ts ↔ is.map (fun i => s.vars[i]?) = ts.map (fun t => some (.stream t)) := by
  induction is generalizing ts with
  | nil => cases ts <;> simp [State.streams]
  | cons i is ih =>
    simp only [State.streams, bind_ok, stream_ok, ih]
    constructor
    · rintro ⟨t, h1, us, h2, h⟩
      injection h with h; subst h
      simp [h1, h2]
    · intro h
      cases ts with
      | nil => simp at h
      | cons t ts =>
        simp only [List.map_cons, List.cons.injEq] at h
        exact ⟨t, h.1, ts, h.2, rfl⟩

theorem resolvedAt_mismatch {a b : WSpan} : a.resolvedAt b = .mismatch ↔ spanMode a ≠ spanMode b := by
  cases a <;> cases b <;> simp [WSpan.resolvedAt, spanMode]
theorem locatedAt_mismatch {a b : WSpan} : a.locatedAt b = .mismatch ↔ spanMode a ≠ spanMode b := by
  cases a <;> cases b <;> simp [WSpan.locatedAt, spanMode]
theorem setSpan_mismatch {t : Tree} {a : WSpan} :
    t.setSpan a = .mismatch ↔ ¬ IsPunct t ∧ treeMode t ≠ spanMode a := by
  cases t <;> cases a <;> simp [Tree.setSpan, treeMode, spanMode, IsPunct]
theorem identEq_mismatch {t u : Tree} :
    t.identEq u = .mismatch ↔ IsIdent t ∧ IsIdent u ∧ treeMode t ≠ treeMode u := by
  cases t <;> cases u <;> simp [Tree.identEq, treeMode, IsIdent]

theorem intoCompilerToken_mismatch {t : Tree} : intoCompilerToken t = .mismatch ↔ treeMode t = false := by
  cases t with
  | punct ch sp s => cases s <;> simp [intoCompilerToken, treeMode, spanMode, bind_mismatch, WSpan.unwrapNightly]
  | _ => simp [intoCompilerToken, treeMode]

theorem intoCompilerToken_cases (t : Tree) : (∃ x, intoCompilerToken t = .ok x) ∨ intoCompilerToken t = .mismatch := by
  cases t with
  | punct ch sp s =>
    cases s with
    | compiler s => exact .inl ⟨_, rfl⟩
    | fallback s => exact .inr rfl
  | _ => first | exact .inl ⟨_, rfl⟩ | exact .inr rfl

theorem intoCompilerTokens_mismatch {ts : List Tree} :
    intoCompilerTokens ts = .mismatch ↔ ∃ t ∈ ts, treeMode t = false := by
  induction ts with
  | nil => simp [intoCompilerTokens]
  | cons t ts ih =>
    simp only [intoCompilerTokens, bind_mismatch, intoCompilerToken_mismatch, ih, List.mem_cons,
      exists_eq_or_imp, ok_mismatch, and_false, exists_false, or_false]
    constructor
    · rintro (h | ⟨a, h1, h2⟩)
      · exact .inl h
      · exact .inr h2
    · rintro (h | h)
      · exact .inl h
      · rcases intoCompilerToken_cases t with ⟨x, hx⟩ | hx
        · exact .inr ⟨x, hx, h⟩
        · exact .inl (intoCompilerToken_mismatch.mp hx)

theorem unwrapNightlies_mismatch {ss : List (WStream σ)} :
    unwrapNightlies ss = .mismatch ↔ ∃ t ∈ ss, streamMode t ≠ true := by
  induction ss with
  | nil => simp [unwrapNightlies]
  | cons s ss ih =>
    cases s with
    | compiler s =>
      simp [unwrapNightlies, bind_mismatch, WStream.unwrapNightly, streamMode] at ih ⊢
      exact ih
    | fallback s => simp [unwrapNightlies, bind_mismatch, WStream.unwrapNightly, streamMode]

theorem unwrapStables_mismatch {ss : List (WStream σ)} :
    unwrapStables ss = .mismatch ↔ ∃ t ∈ ss, streamMode t ≠ false := by
  induction ss with
  | nil => simp [unwrapStables]
  | cons s ss ih =>
    cases s with
    | fallback s =>
      simp [unwrapStables, bind_mismatch, WStream.unwrapStable, streamMode] at ih ⊢
      exact ih
    | compiler s => simp [unwrapStables, bind_mismatch, WStream.unwrapStable, streamMode]

variable [Rep σ]

theorem extendStreams_mismatch {s : WStream σ} {ss : List (WStream σ)} :
    s.extendStreams ss = .mismatch ↔ ∃ t ∈ ss, streamMode t ≠ streamMode s := by
  cases s with
  | compiler s => simp [WStream.extendStreams, bind_mismatch, unwrapNightlies_mismatch, streamMode]
  | fallback s => simp [WStream.extendStreams, bind_mismatch, unwrapStables_mismatch, streamMode]

theorem extendTrees_mismatch {s : WStream σ} {ts : List Tree} :
    s.extendTrees ts = .mismatch ↔ streamMode s = true ∧ ∃ t ∈ ts, treeMode t = false := by
  cases s with
  | compiler s => simp [WStream.extendTrees, bind_mismatch, intoCompilerTokens_mismatch, streamMode]
  | fallback s => simp [WStream.extendTrees, streamMode]

theorem fromTree_mismatch {m : Bool} {t : Tree} :
    (WStream.fromTree m t : Out (WStream σ)) = .mismatch ↔ m = true ∧ treeMode t = false := by
  cases m <;> simp [WStream.fromTree, bind_mismatch, intoCompilerToken_mismatch]

theorem collectTrees_mismatch {m : Bool} {ts : List Tree} :
    (WStream.collectTrees m ts : Out (WStream σ)) = .mismatch ↔ m = true ∧ ∃ t ∈ ts, treeMode t = false := by
  cases m <;> simp [WStream.collectTrees, bind_mismatch, intoCompilerTokens_mismatch]

variable [UnicodeTables]

theorem fromStr2_mismatch {ε α β : Type} (x : Res ε β) (parse : List Char → Outcome CompilerTypes.Error α)
    (src : List Char) :
    ((fromStr2 x parse src).1 = .mismatch) ↔ False := by
  cases x <;> simp [fromStr2]
  cases parse src <;> simp

theorem fromStr_mismatch (m : Bool) (sm : SourceMap) (src : List Char) :
    ((WStream.fromStr m sm src : Parsed (WStream σ)).result = .mismatch) ↔ False := by
  have := good_fromStr (σ := σ) m sm src
  constructor
  · intro h; rw [h] at this; exact this
  · exact False.elim

theorem literalFromStr_mismatch (m : Bool) (sm : SourceMap) (src : List Char) :
    ((literalFromStr m sm src).result = .mismatch) ↔ False := by
  have := good_literalFromStr m sm src
  constructor
  · intro h; rw [h] at this; exact this
  · exact False.elim

/-- **C57.** A call panics for mixed modes exactly if it mixes values of two modes in one of the ways of
`Mixes`. In particular (see `Mixes`), a stream of the fallback takes trees of the compiler, and a `Punct`
takes spans of any mode. -/
theorem C57_mixed (inside : Bool) (s : State σ) (op : Op) :
    Wrap.step inside s op = .mismatch ↔ Mixes inside s op := by
  cases op with
  | resolvedAt i j =>
    simp only [Wrap.step, bind_mismatch, span_mismatch, span_ok, resolvedAt_mismatch, false_or, ok_mismatch,
      and_false, exists_false, or_false, Mixes]
    exact ⟨fun ⟨a, h1, b, h2, h⟩ => ⟨a, b, h1, h2, h⟩, fun ⟨a, b, h1, h2, h⟩ => ⟨a, h1, b, h2, h⟩⟩
  | locatedAt i j =>
    simp only [Wrap.step, bind_mismatch, span_mismatch, span_ok, locatedAt_mismatch, false_or, ok_mismatch,
      and_false, exists_false, or_false, Mixes]
    exact ⟨fun ⟨a, h1, b, h2, h⟩ => ⟨a, b, h1, h2, h⟩, fun ⟨a, b, h1, h2, h⟩ => ⟨a, h1, b, h2, h⟩⟩
  | setSpan i j =>
    simp only [Wrap.step, bind_mismatch, span_mismatch, span_ok, tree_mismatch, tree_ok, setSpan_mismatch,
      false_or, ok_mismatch, and_false, exists_false, or_false, Mixes]
    exact ⟨fun ⟨a, h1, b, h2, h⟩ => ⟨a, b, h1, h2, h⟩, fun ⟨a, b, h1, h2, h⟩ => ⟨a, h1, b, h2, h⟩⟩
  | identEq i j =>
    simp only [Wrap.step, bind_mismatch, tree_mismatch, tree_ok, identEq_mismatch,
      false_or, ok_mismatch, and_false, exists_false, or_false, Mixes]
    exact ⟨fun ⟨a, h1, b, h2, h⟩ => ⟨a, b, h1, h2, h⟩, fun ⟨a, b, h1, h2, h⟩ => ⟨a, h1, b, h2, h⟩⟩
  | fromTree i =>
    simp only [Wrap.step, bind_mismatch, tree_mismatch, tree_ok, fromTree_mismatch,
      false_or, ok_mismatch, and_false, exists_false, or_false, Mixes]
    exact ⟨fun ⟨a, h1, b, h⟩ => ⟨b, a, h1, h⟩, fun ⟨b, a, h1, h⟩ => ⟨a, h1, b, h⟩⟩
  | collectTrees is =>
    simp only [Wrap.step, bind_mismatch, trees_mismatch, trees_ok, collectTrees_mismatch,
      false_or, ok_mismatch, and_false, exists_false, or_false, Mixes, HaveTrees]
    exact ⟨fun ⟨a, h1, b, h⟩ => ⟨b, a, h1, h⟩, fun ⟨b, a, h1, h⟩ => ⟨a, h1, b, h⟩⟩
  | extendTrees i js =>
    simp only [Wrap.step, bind_mismatch, trees_mismatch, trees_ok, stream_mismatch, stream_ok,
      extendTrees_mismatch, false_or, ok_mismatch, and_false, exists_false, or_false, Mixes, HaveTrees]
    exact ⟨fun ⟨a, h1, b, h2, h⟩ => ⟨a, b, h1, h2, h⟩, fun ⟨a, b, h1, h2, h⟩ => ⟨a, h1, b, h2, h⟩⟩
  | extendStreams i js =>
    simp only [Wrap.step, bind_mismatch, streams_mismatch, streams_ok, stream_mismatch, stream_ok,
      extendStreams_mismatch, false_or, ok_mismatch, and_false, exists_false, or_false, Mixes, HaveStreams]
    exact ⟨fun ⟨a, h1, b, h2, h⟩ => ⟨a, b, h1, h2, h⟩, fun ⟨a, b, h1, h2, h⟩ => ⟨a, h1, b, h2, h⟩⟩
  | collectStreams is =>
    simp only [Wrap.step, bind_mismatch, streams_mismatch, streams_ok,
      false_or, ok_mismatch, and_false, exists_false, or_false, Mixes, HaveStreams]
    constructor
    · rintro ⟨ss, h1, h⟩
      cases ss with
      | nil => simp [WStream.collectStreams] at h
      | cons x ss => exact ⟨x, ss, h1, extendStreams_mismatch.mp h⟩
    · rintro ⟨x, ss, h1, h⟩
      exact ⟨x :: ss, h1, extendStreams_mismatch.mpr h⟩
  | fromStr src =>
    simp only [Wrap.step, bind_mismatch, fromStr_mismatch, false_or, Mixes, iff_false]
    rintro ⟨a, -, h⟩
    cases a <;> simp at h
  | literalFromStr src =>
    simp only [Wrap.step, bind_mismatch, literalFromStr_mismatch, false_or, Mixes, iff_false]
    rintro ⟨a, -, h⟩
    cases a <;> simp at h
  | next i =>
    simp only [Wrap.step, Mixes, iff_false]
    split <;> simp only [bind_mismatch, ok_mismatch, and_false, exists_false, or_false, reduceCtorEq,
      not_false_eq_true]
    rename_i t ts hv
    cases t <;> simp [ofCompilerToken]
    split <;> simp
  | intoCompiler i =>
    simp only [Wrap.step, bind_mismatch, stream_mismatch, false_or, Mixes, iff_false, ok_mismatch, and_false,
      exists_false, or_false]
    rintro ⟨x, -, h⟩
    cases x with
    | compiler x => simp [WStream.intoCompiler] at h
    | fallback x =>
      simp only [WStream.intoCompiler] at h
      split at h <;> cases h
  | unwrap i =>
    simp only [Wrap.step, bind_mismatch, span_mismatch, false_or, Mixes, iff_false, ok_mismatch, and_false,
      exists_false, or_false]
    rintro ⟨x, -, h⟩
    cases x <;> cases h
  | join i j =>
    simp only [Wrap.step, bind_mismatch, span_mismatch, false_or, Mixes, iff_false, ok_mismatch, and_false,
      exists_false, or_false]
    rintro ⟨x, -, y, -, h⟩
    cases x <;> cases y <;> simp [WSpan.join, bind_mismatch, ofRes_mismatch] at h
  | identNew t i =>
    simp only [Wrap.step, bind_mismatch, span_mismatch, false_or, Mixes, iff_false, ok_mismatch, and_false,
      exists_false, or_false]
    rintro ⟨x, -, h⟩
    cases x <;> simp [identNewW, bind_mismatch, ofRes_mismatch, ofOption_mismatch] at h
  | identNewRaw t i =>
    simp only [Wrap.step, bind_mismatch, span_mismatch, false_or, Mixes, iff_false, ok_mismatch, and_false,
      exists_false, or_false]
    rintro ⟨x, -, h⟩
    cases x <;> simp [identNewRawW, bind_mismatch, ofRes_mismatch, ofOption_mismatch] at h
  | identEqStr i t =>
    simp only [Wrap.step, bind_mismatch, tree_mismatch, false_or, Mixes, iff_false, ok_mismatch, and_false,
      exists_false, or_false]
    rintro ⟨x, -, h⟩
    cases x <;> simp [Tree.identEqStr, ofRes_mismatch] at h
  | punctNew ch sp =>
    simp only [Wrap.step, bind_mismatch, Mixes, iff_false, ok_mismatch, and_false, exists_false, or_false]
    unfold Wrap.punctNew
    split <;> simp
  | subspan i a b =>
    simp only [Wrap.step, bind_mismatch, tree_mismatch, false_or, Mixes, iff_false, ok_mismatch, and_false,
      exists_false, or_false]
    rintro ⟨x, -, h⟩
    cases x <;> simp [Tree.subspan] at h
  | errorSpan i =>
    simp only [Wrap.step, Mixes, iff_false]
    split <;> simp
  | invalidate =>
    cases inside <;> simp [Wrap.step, Mixes]
  | byteRange i =>
    simp only [Wrap.step, bind_mismatch, span_mismatch, false_or, Mixes, iff_false, ok_mismatch, and_false,
      exists_false, or_false]
    rintro ⟨x, -, h⟩
    cases x <;> simp [WSpan.byteRange, ofRes_mismatch] at h
  | start i =>
    simp only [Wrap.step, bind_mismatch, span_mismatch, false_or, Mixes, iff_false, ok_mismatch, and_false,
      exists_false, or_false]
    rintro ⟨x, -, h⟩
    cases x <;> simp [WSpan.start, ofRes_mismatch] at h
  | end_ i =>
    simp only [Wrap.step, bind_mismatch, span_mismatch, false_or, Mixes, iff_false, ok_mismatch, and_false,
      exists_false, or_false]
    rintro ⟨x, -, h⟩
    cases x <;> simp [WSpan.end_, ofRes_mismatch] at h
  | file i =>
    simp only [Wrap.step, bind_mismatch, span_mismatch, false_or, Mixes, iff_false, ok_mismatch, and_false,
      exists_false, or_false]
    rintro ⟨x, -, h⟩
    cases x with
    | compiler x => exact absurd h (by unfold WSpan.file; simp only [ok_mismatch, not_false_eq_true])
    | fallback x => simp [WSpan.file, ofRes_mismatch] at h
  | sourceText i =>
    simp only [Wrap.step, bind_mismatch, span_mismatch, false_or, Mixes, iff_false, ok_mismatch, and_false,
      exists_false, or_false]
    rintro ⟨x, -, h⟩
    cases x <;> simp [WSpan.sourceText, ofRes_mismatch] at h
  | literalUnchecked r =>
    simp only [Wrap.step, bind_mismatch, Mixes, iff_false, ok_mismatch, and_false, exists_false, or_false]
    unfold Wrap.literalUnchecked
    split
    · split <;> simp
    · simp
  | sizeHint i =>
    simp only [Wrap.step, Mixes, iff_false]
    split <;> simp
  | errorText i =>
    simp only [Wrap.step, Mixes, iff_false]
    split <;> simp
  | value k i =>
    simp [Wrap.step, bind_mismatch, Mixes, ofRes_mismatch, tree_mismatch, typed_mismatch, ok_mismatch]
  | byteCharacter b =>
    simp only [Wrap.step, bind_mismatch, Mixes, iff_false, ok_mismatch, and_false, exists_false, or_false]
    unfold byteCharacterW Wrap.literalUnchecked
    split
    · split
      · simp
      · simp only [if_true]; split <;> simp
    · simp
  | cString bs =>
    simp only [Wrap.step, bind_mismatch, Mixes, iff_false, ok_mismatch, and_false, exists_false, or_false]
    unfold cStringW Wrap.literalUnchecked
    split
    · split
      · simp
      · simp only [if_true, bind_mismatch, ofRes_mismatch, false_or]
        rintro ⟨r, -, h⟩
        split at h <;> cases h
    · simp [bind_mismatch, ofRes_mismatch]
  | debug alternate i =>
    simp only [Wrap.step, bind_mismatch, typed_mismatch, false_or, Mixes, iff_false, ok_mismatch, and_false,
      exists_false, or_false]
    rintro ⟨x, -, h⟩
    have := good_debug true alternate x
    rw [h] at this
    exact this
  | _ =>
    simp [Wrap.step, bind_mismatch, span_mismatch, stream_mismatch, tree_mismatch, delim_mismatch,
      typed_mismatch, Mixes]

omit [UnicodeTables] [Rep σ] in
/-- **C57.** Spans of two modes have no join, and are not equal. -/
theorem C57_spans (sm : SourceMap) {a b : WSpan} (h : spanMode a ≠ spanMode b) :
    WSpan.join sm a b = .ok none ∧ WSpan.eq a b = false := by
  cases a <;> cases b <;> simp_all [spanMode, WSpan.join, WSpan.eq]

/-! ## C58 -/

/-- What the compiler's parser makes of a text. -/
def answer {α β : Type} (k : α → β) : Outcome CompilerTypes.Error α → LexError ⊕ β
  | .ok a => .inr (k a)
  | .err e => .inl (.compiler e)
  | .panic => .inl .compilerPanic

variable [LawfulUnicode]

/-- **C58.** Inside a macro, a text that the fallback's lexer rejects is an error and is not handed to the
compiler. Any other text is handed to the compiler, once and unchanged, and its result is returned; a
panic of the compiler's parser is an error. The call never panics itself. -/
theorem C58_stream {sm : SourceMap} {texts : List (List Char)} (h : History sm texts) {src : List Char}
    (hr : Room texts src) :
    ((∃ e, (TokenStream.fromStr sm src).2 = .err e) →
      (WStream.fromStr true sm src : Parsed (WStream σ)).result = .ok (.inl .compilerPanic) ∧
      (WStream.fromStr true sm src : Parsed (WStream σ)).handed = []) ∧
    ((∃ ts, (TokenStream.fromStr sm src).2 = .ok ts) →
      (WStream.fromStr true sm src : Parsed (WStream σ)).result =
        .ok (answer (fun ts => .compiler (Rep.new ts)) (Compiler.parseStream src)) ∧
      (WStream.fromStr true sm src : Parsed (WStream σ)).handed = [src]) ∧
    ((∃ e, (TokenStream.fromStr sm src).2 = .err e) ∨ (∃ ts, (TokenStream.fromStr sm src).2 = .ok ts)) := by
  refine ⟨?_, ?_, (C01_parse_total h hr).symm⟩
  · rintro ⟨e, he⟩
    constructor <;> simp [WStream.fromStr, he, fromStr2, out_bind_ok]
  · rintro ⟨ts, he⟩
    constructor
    · simp only [WStream.fromStr, if_true, he, fromStr2]
      cases Compiler.parseStream src <;> rfl
    · simp [WStream.fromStr, he, fromStr2]

omit [Rep σ] in
/-- **C58.** The same for literals. -/
theorem C58_literal {sm : SourceMap} {texts : List (List Char)} (h : History sm texts) {src : List Char}
    (hr : Room texts src) :
    ((∃ e, (Literal.fromStr sm src).2 = .err e) →
      (literalFromStr true sm src).result = .ok (.inl .compilerPanic) ∧
      (literalFromStr true sm src).handed = []) ∧
    ((∃ l, (Literal.fromStr sm src).2 = .ok l) →
      (literalFromStr true sm src).result = .ok (answer .literalC (Compiler.parseLiteral src)) ∧
      (literalFromStr true sm src).handed = [src]) ∧
    ((∃ e, (Literal.fromStr sm src).2 = .err e) ∨ (∃ l, (Literal.fromStr sm src).2 = .ok l)) := by
  refine ⟨?_, ?_, (C02_literal_total h hr).symm⟩
  · rintro ⟨e, he⟩
    constructor <;> simp [literalFromStr, he, fromStr2, out_bind_ok]
  · rintro ⟨ts, he⟩
    constructor
    · simp only [literalFromStr, if_true, he, fromStr2]
      cases Compiler.parseLiteral src <;> rfl
    · simp [literalFromStr, he, fromStr2]

end states

end

/-! ## Concrete cases -/

section examples

attribute [local instance] sampleCompiler sampleTables sampleTables_lawful

private theorem toy_enter : ∀ t : CTree, Compiler.enter t ≠ [] := sampleEnter_ne

/-- The last text that a program printed. -/
private def printed {σ : Type} : Out (State σ) → Option (List Char)
  | .ok s =>
    match s.vars.getLast? with
    | some (.text t) => some t
    | _ => none
  | _ => none

/-- A program inside a macro: a negative literal is appended to an empty stream, the stream is copied,
both are concatenated, a literal is appended, and the stream is printed. -/
private def program : List (Bool × Op) :=
  [.new, .literalNew ['-', '1'], .extendTrees 0 [1], .clone 0, .collectStreams [0, 2], .literalNew ['5'],
    .extendTrees 3 [4], .display 3].map (fun op => (true, op))

/-- C56: the program prints the same with deferred streams as with others. -/
example : printed (Wrap.run (State.init : State Deferred) program) = some "- 1 - 1 5 ".toList := by
  decide +kernel

example : Wrap.run (mapState now (State.init : State Deferred)) program =
    mapOut (mapState now) (Wrap.run State.init program) := C56_deferred toy_enter _ _

/-- C57: this program has values of one mode. -/
example : Wrap.run (State.init : State Deferred) program ≠ .mismatch :=
  (C57_homogeneous (m := true) (by simp [State.init]) (by simp [program]) (by simp)).1

/-- C57: a span of the fallback and a span of the compiler. -/
example : Mixes true (⟨SourceMap.init, [.span (.compiler (3 : Nat)), .span (.fallback ⟨1, 2⟩)]⟩ : State Deferred)
    (.resolvedAt 0 1) := ⟨.compiler (3 : Nat), .fallback ⟨1, 2⟩, rfl, rfl, by simp [spanMode]⟩

/-- C57: a stream of the fallback takes an identifier of the compiler. -/
example : ∃ t, Wrap.step false (⟨SourceMap.init, [.stream (.fallback []), .tree (.identC (['x'], (3 : Nat)))]⟩ :
    State Deferred) (.extendTrees 0 [1]) = .ok t := ⟨_, rfl⟩

/-- C58: a text that the fallback rejects, and texts that it accepts and the compiler does not. -/
example : (∃ e, (TokenStream.fromStr SourceMap.init "(".toList).2 = .err e) ∧
    (∃ ts, (TokenStream.fromStr SourceMap.init ['2']).2 = .ok ts) ∧
    Compiler.parseStream ['2'] = .panic ∧ History SourceMap.init [] ∧ Room [] ['2'] :=
  ⟨⟨⟨1, 1⟩, by decide +kernel⟩, ⟨[.literal ['2'] ⟨1, 2⟩], by decide +kernel⟩, rfl, .init, by decide⟩

end examples

end PM2.Props
