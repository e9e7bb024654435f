import Verif.Spec.Direct
import Verif.Props.RoundTrip
import Verif.Props.Wrapper
/-! # C66, C67, C68: the wrapper adds nothing -/

namespace PM2.Props
open Wrap Spec Spec.Direct

section
variable [Compiler]

/-! ## Trees -/

mutual
theorem treeF_eq (t : TokenTree) : Tree.ofFallback t = treeF t := by
  cases t with
  | group d ts s => simp only [Tree.ofFallback, treeF, treesF_eq ts]
  | _ => rfl
theorem treesF_eq (ts : List TokenTree) : Tree.ofFallbacks ts = treesF ts := by
  cases ts with
  | nil => rfl
  | cons t ts => simp only [Tree.ofFallbacks, treesF, treeF_eq t, treesF_eq ts]
end

theorem treesF_map (ts : List TokenTree) : treesF ts = ts.map treeF := by
  induction ts with
  | nil => rfl
  | cons t ts ih => simp [treesF, ih]

theorem jointAfterW_treeF (t : TokenTree) : jointAfterW (treeF t) = jointAfter t := by
  cases t <;> rfl

mutual
theorem displayTreeW_treeF (t : TokenTree) : displayTreeW (treeF t) = displayTree t := by
  cases t with
  | group d ts s =>
    simp only [treeF, displayTreeW, displayTree, displayLoopW_treesF ts]
    cases ts <;> rfl
  | _ => rfl
theorem displayLoopW_treesF (ts : List TokenTree) (first joint : Bool) :
    displayLoopW (treesF ts) first joint = displayLoop ts first joint := by
  cases ts with
  | nil => rfl
  | cons t ts =>
    simp only [treesF, displayLoopW, displayLoop, displayTreeW_treeF t, displayLoopW_treesF ts,
      jointAfterW_treeF]
end

theorem displayW_treesF (ts : List TokenTree) : displayLoopW (treesF ts) true false = display ts :=
  displayLoopW_treesF ts true false

theorem pushTree_treeF (t : TokenTree) : pushTree (treeF t) = treesF (splitNeg t) := by
  cases t with
  | literal r s =>
    cases r with
    | nil => rfl
    | cons c r =>
      by_cases hc : c = '-'
      · subst hc; rfl
      · have h1 : splitNeg (.literal (c :: r) s) = [.literal (c :: r) s] := by
          unfold splitNeg
          split
          · rename_i h; injection h with h _; injection h with h _; exact absurd h hc
          · rfl
        rw [h1]
        simp only [treeF, pushTree]
        split
        · rename_i h; injection h with h _; exact absurd h hc
        · rfl
  | _ => rfl

theorem pushTrees_treesF (ts : List TokenTree) : (treesF ts).flatMap pushTree = treesF (ts.flatMap splitNeg) := by
  induction ts with
  | nil => rfl
  | cons t ts ih => simp [treesF, treesF_map, pushTree_treeF] at ih ⊢; exact ih

theorem treesF_append (a b : List TokenTree) : treesF (a ++ b) = treesF a ++ treesF b := by simp [treesF_map]

section
variable [UnicodeTables]

mutual
theorem debugTreeW_treeF (alternate : Bool) (t : TokenTree) :
    debugTreeW true alternate (treeF t) = debugTree true alternate t := by
  cases t with
  | group d ts s => simp only [treeF, debugTreeW, debugTree, debugTreesW_treesF alternate ts]
  | _ => rfl
theorem debugTreesW_treesF (alternate : Bool) (ts : List TokenTree) :
    debugTreesW true alternate (treesF ts) = debugTrees true alternate ts := by
  cases ts with
  | nil => rfl
  | cons t ts =>
    simp only [treesF, debugTreesW, debugTrees, debugTreeW_treeF alternate t, debugTreesW_treesF alternate ts]
end

theorem debugStreamW_treesF (alternate : Bool) (ts : List TokenTree) :
    debugStreamW true alternate (treesF ts) = debugStream true alternate ts := by
  unfold debugStreamW debugStream
  rw [debugTreesW_treesF]

theorem debug_F {σ : Type} [Rep σ] (alternate : Bool) (v : FValue) :
    (v.toValue : Value σ).debug true alternate = Out.typed (v.debug alternate) := by
  cases v with
  | stream ts => exact congrArg Out.ok (debugStreamW_treesF alternate ts)
  | tree t => exact congrArg Out.ok (debugTreeW_treeF alternate t)
  | iter ts => exact congrArg Out.ok (debugStreamW_treesF alternate ts)
  | plain v => cases v <;> rfl
  | _ => rfl

end

theorem valueOfText_eq (k : ValueKind) (repr : List Char) : valueOfText k repr = Out.ofRes (literalValue repr k) := by
  cases k <;> simp only [valueOfText, literalValue] <;> split <;> rename_i e <;> rw [e] <;> rfl

/-! ## States of the fallback -/

section fallback
variable {σ : Type}

theorem toState_push (s : FState) (v : FValue) :
    ((s.push v).toState : State σ) = s.toState.push v.toValue := by
  simp [FState.toState, FState.push, State.push]

theorem toState_set (s : FState) (i : Nat) (v : FValue) :
    ((s.set i v).toState : State σ) = s.toState.set i v.toValue := by
  simp [FState.toState, FState.set, State.set, List.map_set]

theorem toState_get (s : FState) (i : Nat) :
    (s.toState : State σ).vars[i]? = (s.vars[i]?).map FValue.toValue := by simp [FState.toState]

theorem toState_sm (s : FState) : (s.toState : State σ).sm = s.sm := rfl

theorem toState_stream (s : FState) (i : Nat) :
    (s.toState : State σ).stream i = mapOut (fun ts => .fallback (treesF ts)) (s.read FValue.stream? i) := by
  simp only [State.stream, FState.read, toState_get]
  cases s.vars[i]? with
  | none => rfl
  | some v => cases v <;> first | rfl | (rename_i v; cases v <;> rfl)

theorem toState_tree (s : FState) (i : Nat) :
    (s.toState : State σ).tree i = mapOut treeF (s.read FValue.tree? i) := by
  simp only [State.tree, FState.read, toState_get]
  cases s.vars[i]? with
  | none => rfl
  | some v => cases v <;> first | rfl | (rename_i v; cases v <;> rfl)

theorem toState_span (s : FState) (i : Nat) :
    (s.toState : State σ).span i = mapOut .fallback (s.read FValue.span? i) := by
  simp only [State.span, FState.read, toState_get]
  cases s.vars[i]? with
  | none => rfl
  | some v => cases v <;> first | rfl | (rename_i v; cases v <;> rfl)

theorem toState_delim (s : FState) (i : Nat) :
    (s.toState : State σ).delim i = mapOut (fun g => .fallback g.2.2) (s.read FValue.delim? i) := by
  simp only [State.delim, FState.read, toState_get]
  cases s.vars[i]? with
  | none => rfl
  | some v => cases v <;> first | rfl | (rename_i v; cases v <;> rfl)

theorem toState_trees (s : FState) (is : List Nat) :
    (s.toState : State σ).trees is = mapOut treesF (s.reads FValue.tree? is) := by
  induction is with
  | nil => rfl
  | cons i is ih =>
    simp only [State.trees, FState.reads, toState_tree, ih, bind_mapOut, mapOut_bind]
    rfl

theorem toState_streams (s : FState) (is : List Nat) :
    (s.toState : State σ).streams is =
      mapOut (List.map fun ts => .fallback (treesF ts)) (s.reads FValue.stream? is) := by
  induction is with
  | nil => rfl
  | cons i is ih =>
    simp only [State.streams, FState.reads, toState_stream, ih, bind_mapOut, mapOut_bind]
    rfl

theorem unwrapStables_F (l : List (List TokenTree)) :
    unwrapStables (l.map fun ts => (.fallback (treesF ts) : WStream σ)) = .ok (l.map treesF) := by
  induction l with
  | nil => rfl
  | cons a l ih => simp only [List.map_cons, unwrapStables, WStream.unwrapStable, ih, out_bind_ok]

theorem treesF_flatten (l : List (List TokenTree)) : (l.map treesF).flatten = treesF l.flatten := by
  induction l with
  | nil => rfl
  | cons a l ih => simp [treesF_append, ih]

theorem toState_withSm (s : FState) (sm : SourceMap) :
    (({ s with sm := sm } : FState).toState : State σ) = { s.toState with sm := sm } := rfl

theorem ofSpan_F (x : Option Span) :
    ((FValue.ofSpan x).toValue : Value σ) = Value.ofSpan (x.map .fallback) := by
  cases x <;> rfl

theorem ofText_F (x : Option (List Char)) : ((FValue.ofText x).toValue : Value σ) = Value.ofText x := by
  cases x <;> rfl

variable [Rep σ] [UnicodeTables]

/-- One call outside a macro. -/
theorem fallback_step (s : FState) (op : Op) (hi : ¬ Imports op) :
    Wrap.step false (s.toState : State σ) op = mapOut FState.toState (fstep s op) := by
  cases op with
  | fromCompiler ts => exact absurd trivial hi
  | spanFromCompiler x => exact absurd trivial hi
  | new => simp [Wrap.step, fstep, WStream.new, toState_push, FValue.toValue, treesF]
  | fromStr src =>
    simp only [Wrap.step, fstep, WStream.fromStr, toState_sm]
    cases h : TokenStream.fromStr s.sm src with
    | mk sm r =>
      cases r <;> simp [out_bind_ok, toState_push, toState_withSm, FValue.toValue, treesF_eq] <;> rfl
  | literalFromStr src =>
    simp only [Wrap.step, fstep, Wrap.literalFromStr, toState_sm]
    cases h : Literal.fromStr s.sm src with
    | mk sm r =>
      cases r <;> simp [out_bind_ok, toState_push, toState_withSm, FValue.toValue, treeF] <;> rfl
  | clone i =>
    simp only [Wrap.step, fstep, toState_get, FState.read]
    cases s.vars[i]? with
    | none => rfl
    | some v => simp [Out.typed, out_bind_ok, toState_push]
  | intoCompiler i =>
    simp only [Wrap.step, fstep, toState_stream, bind_mapOut, mapOut_bind, WStream.intoCompiler, displayW_treesF]
    congr 1
    funext ts
    cases Compiler.parseStream (display ts) <;>
      simp [out_bind_ok, toState_push, FValue.toValue, Plain.toValue] <;> rfl
  | groupStream i =>
    simp only [Wrap.step, fstep, State.tree, FState.read, toState_get]
    cases s.vars[i]? with
    | none => rfl
    | some v =>
      cases v with
      | tree t => cases t <;> first | rfl | exact congrArg Out.ok (Eq.trans (by rfl) (toState_push s _).symm)
      | plain v => cases v <;> rfl
      | _ => rfl
  | spanOpen i =>
    simp only [Wrap.step, fstep, State.tree, FState.read, toState_get]
    cases s.vars[i]? with
    | none => rfl
    | some v =>
      cases v with
      | tree t => cases t <;> first | rfl | exact congrArg Out.ok (Eq.trans (by rfl) (toState_push s _).symm)
      | plain v => cases v <;> rfl
      | _ => rfl
  | spanClose i =>
    simp only [Wrap.step, fstep, State.tree, FState.read, toState_get]
    cases s.vars[i]? with
    | none => rfl
    | some v =>
      cases v with
      | tree t => cases t <;> first | rfl | exact congrArg Out.ok (Eq.trans (by rfl) (toState_push s _).symm)
      | plain v => cases v <;> rfl
      | _ => rfl
  | delimiter i =>
    simp only [Wrap.step, fstep, State.tree, FState.read, toState_get]
    cases s.vars[i]? with
    | none => rfl
    | some v =>
      cases v with
      | tree t => cases t <;> first | rfl | exact congrArg Out.ok (Eq.trans (by rfl) (toState_push s _).symm)
      | plain v => cases v <;> rfl
      | _ => rfl
  | delimSpan i =>
    simp only [Wrap.step, fstep, State.tree, FState.read, toState_get]
    cases s.vars[i]? with
    | none => rfl
    | some v =>
      cases v with
      | tree t => cases t <;> first | rfl | exact congrArg Out.ok (Eq.trans (by rfl) (toState_push s _).symm)
      | plain v => cases v <;> rfl
      | _ => rfl
  | asChar i =>
    simp only [Wrap.step, fstep, State.tree, FState.read, toState_get]
    cases s.vars[i]? with
    | none => rfl
    | some v =>
      cases v with
      | tree t => cases t <;> first | rfl | exact congrArg Out.ok (Eq.trans (by rfl) (toState_push s _).symm)
      | plain v => cases v <;> rfl
      | _ => rfl
  | spacing i =>
    simp only [Wrap.step, fstep, State.tree, FState.read, toState_get]
    cases s.vars[i]? with
    | none => rfl
    | some v =>
      cases v with
      | tree t => cases t <;> first | rfl | exact congrArg Out.ok (Eq.trans (by rfl) (toState_push s _).symm)
      | plain v => cases v <;> rfl
      | _ => rfl
  | identHash i =>
    simp only [Wrap.step, fstep, State.tree, FState.read, toState_get]
    cases s.vars[i]? with
    | none => rfl
    | some v =>
      cases v with
      | tree t => cases t <;> first | rfl | exact congrArg Out.ok (Eq.trans (by rfl) (toState_push s _).symm)
      | plain v => cases v <;> rfl
      | _ => rfl
  | identEqStr i txt =>
    simp only [Wrap.step, fstep, State.tree, FState.read, toState_get]
    cases s.vars[i]? with
    | none => rfl
    | some v =>
      cases v with
      | tree t => 
        cases t with
        | ident sym raw sp =>
          change (Out.ofRes (IdentData.eqStr ⟨sym, raw⟩ txt) >>= fun b => _) =
            mapOut _ (Out.ofRes (IdentData.eqStr ⟨sym, raw⟩ txt) >>= fun b => _)
          rw [mapOut_bind]
          simp only [mapOut_ok, toState_push]
          rfl
        | _ => rfl
      | plain v => cases v <;> rfl
      | _ => rfl
  | subspan i a b =>
    simp only [Wrap.step, fstep, State.tree, FState.read, toState_get]
    cases s.vars[i]? with
    | none => rfl
    | some v =>
      cases v with
      | tree t => 
        cases t with
        | literal r sp =>
          refine congrArg Out.ok (Eq.trans ?_ (toState_push s _).symm)
          rw [ofSpan_F]
        | _ => rfl
      | plain v => cases v <;> rfl
      | _ => rfl
  | identEq i j =>
    simp only [Wrap.step, fstep, State.tree, FState.read, toState_get]
    cases s.vars[i]? with
    | none => rfl
    | some v =>
      cases v with
      | tree t =>
        cases s.vars[j]? with
        | none => cases t <;> rfl
        | some w =>
          cases w with
          | tree u => cases t <;> cases u <;> first | rfl | exact congrArg Out.ok (Eq.trans (by rfl) (toState_push s _).symm)
          | plain w => cases t <;> cases w <;> rfl
          | _ => cases t <;> rfl
      | plain v => cases v <;> rfl
      | _ => rfl
  | identCmp i j =>
    simp only [Wrap.step, fstep, State.tree, FState.read, toState_get]
    cases s.vars[i]? with
    | none => rfl
    | some v =>
      cases v with
      | tree t =>
        cases s.vars[j]? with
        | none => cases t <;> rfl
        | some w =>
          cases w with
          | tree u => cases t <;> cases u <;> first | rfl | exact congrArg Out.ok (Eq.trans (by rfl) (toState_push s _).symm)
          | plain w => cases t <;> cases w <;> rfl
          | _ => cases t <;> rfl
      | plain v => cases v <;> rfl
      | _ => rfl
  | next i =>
    simp only [Wrap.step, fstep, FState.read, toState_get]
    cases s.vars[i]? with
    | none => rfl
    | some v =>
      cases v with
      | iter ts =>
        cases ts with
        | nil => exact congrArg Out.ok (Eq.trans (by rfl) (toState_push s _).symm)
        | cons t ts =>
          refine congrArg Out.ok (Eq.trans ?_ (toState_push _ _).symm)
          rw [toState_set]
          rfl
      | plain v => cases v <;> rfl
      | _ => rfl
  | errorSpan i =>
    simp only [Wrap.step, fstep, FState.read, toState_get]
    cases s.vars[i]? with
    | none => rfl
    | some v =>
      cases v with
      | error e => simp [Out.typed, out_bind_ok, toState_push, FValue.toValue, LexError.span, FValue.error?]
      | plain v => cases v <;> rfl
      | _ => rfl
  | sizeHint i =>
    simp only [Wrap.step, fstep, FState.read, toState_get]
    cases s.vars[i]? with
    | none => rfl
    | some v =>
      cases v with
      | iter ts =>
        refine congrArg Out.ok (Eq.trans ?_ (toState_push _ _).symm)
        simp [FValue.toValue, Plain.toValue, treesF_map]
      | plain v => cases v <;> rfl
      | _ => rfl
  | value k i =>
    simp only [Wrap.step, fstep, State.tree, FState.read, toState_get, valueOfText_eq]
    cases s.vars[i]? with
    | none => rfl
    | some v =>
      cases v with
      | tree t =>
        cases t with
        | literal r sp =>
          show (Out.ofRes (literalValue r k)).bind _ = mapOut _ ((Out.ofRes (literalValue r k)).bind _)
          cases literalValue r k <;> first | rfl | exact congrArg Out.ok (Eq.trans (by rfl) (toState_push s _).symm)
        | _ => rfl
      | plain v => cases v <;> rfl
      | _ => rfl
  | errorText i =>
    simp only [Wrap.step, fstep, FState.read, toState_get]
    cases s.vars[i]? with
    | none => rfl
    | some v =>
      cases v with
      | error e => exact congrArg Out.ok (Eq.trans (by rfl) (toState_push s _).symm)
      | plain v => cases v <;> rfl
      | _ => rfl
  | debug alternate i =>
    simp only [Wrap.step, fstep, FState.read, toState_get]
    cases s.vars[i]? with
    | none => rfl
    | some v =>
      simp only [Option.map_some, Out.typed, out_bind_ok, debug_F]
      cases v.debug alternate with
      | none => rfl
      | some t => simp only [out_bind_ok, mapOut_ok, toState_push, FValue.toValue, Plain.toValue]
  | debugIdent alternate i =>
    simp only [Wrap.step, fstep, State.tree, FState.read, toState_get]
    cases s.vars[i]? with
    | none => rfl
    | some v =>
      cases v with
      | tree t => cases t <;> first | rfl | exact congrArg Out.ok (Eq.trans (by rfl) (toState_push s _).symm)
      | plain v => cases v <;> rfl
      | _ => rfl
  | collectStreams is =>
    simp only [Wrap.step, fstep, toState_streams, bind_mapOut, mapOut_bind]
    congr 1
    funext l
    cases l with
    | nil => simp [WStream.collectStreams, WStream.new, out_bind_ok, toState_push, FValue.toValue, treesF]
    | cons a l =>
      simp [WStream.collectStreams, WStream.extendStreams, unwrapStables_F, out_bind_ok, toState_push,
        FValue.toValue, treesF_append, treesF_flatten]
  | extendStreams i js =>
    simp only [Wrap.step, fstep, toState_stream, toState_streams, bind_mapOut, mapOut_bind, WStream.extendStreams,
      unwrapStables_F, out_bind_ok, mapOut_ok, toState_set, FValue.toValue, treesF_append, treesF_flatten]
  | punctNew ch sp =>
    simp only [Wrap.step, fstep, Wrap.punctNew, PM2.punctNew]
    split <;> simp [out_bind_ok, Out.ofRes, toState_push, FValue.toValue, treeF, WSpan.callSite] <;> rfl
  | unwrap i =>
    simp only [Wrap.step, fstep, toState_span, bind_mapOut, mapOut_bind]
    congr 1
  | join i j =>
    simp only [Wrap.step, fstep, toState_span, bind_mapOut, mapOut_bind, WSpan.join, toState_sm, mapOut_ok,
      toState_push, ofSpan_F]
    congr 1; funext a; congr 1; funext b
    cases Out.ofRes (Span.join s.sm a b) <;> rfl
  | identNew t i =>
    simp only [Wrap.step, fstep, toState_span, bind_mapOut, mapOut_bind, identNewW, mapOut_ok, toState_push,
      FValue.toValue, treeF_eq]
    congr 1; funext a
    cases Out.ofRes (Ident.new t a) <;> rfl
  | identNewRaw t i =>
    simp only [Wrap.step, fstep, toState_span, bind_mapOut, mapOut_bind, identNewRawW, mapOut_ok, toState_push,
      FValue.toValue, treeF_eq]
    congr 1; funext a
    cases Out.ofRes (Ident.newRaw t a) <;> rfl
  | setSpan i j =>
    simp only [Wrap.step, fstep, toState_span, toState_tree, bind_mapOut, mapOut_bind, mapOut_ok, toState_set,
      FValue.toValue]
    congr 1; funext t; congr 1; funext a
    cases t <;> rfl
  | span i =>
    simp only [Wrap.step, fstep, toState_tree, bind_mapOut, mapOut_bind, mapOut_ok, toState_push, FValue.toValue]
    congr 1; funext t
    cases t <;> rfl
  | fromTree i =>
    simp [Wrap.step, fstep, toState_tree, bind_mapOut, mapOut_bind, WStream.fromTree, pushTree_treeF,
      out_bind_ok, toState_push, FValue.toValue]
  | collectTrees is =>
    simp [Wrap.step, fstep, toState_trees, bind_mapOut, mapOut_bind, WStream.collectTrees, pushTrees_treesF,
      out_bind_ok, toState_push, FValue.toValue]
  | extendTrees i js =>
    simp [Wrap.step, fstep, toState_stream, toState_trees, bind_mapOut, mapOut_bind, WStream.extendTrees,
      pushTrees_treesF, out_bind_ok, toState_set, FValue.toValue, treesF_append]
  | isEmpty i =>
    simp only [Wrap.step, fstep, toState_stream, bind_mapOut, mapOut_bind, mapOut_ok, toState_push, FValue.toValue,
      WStream.isEmpty]
    congr 1; funext ts
    cases ts <;> rfl
  | localFile i =>
    simp only [Wrap.step, fstep, toState_span, bind_mapOut, mapOut_bind, mapOut_ok, toState_push]
    rfl
  | delimJoin i =>
    simp only [Wrap.step, fstep, toState_delim, bind_mapOut, mapOut_bind, mapOut_ok, toState_push]
    rfl
  | delimOpen i =>
    simp only [Wrap.step, fstep, toState_delim, bind_mapOut, mapOut_bind, mapOut_ok, toState_push]
    rfl
  | delimClose i =>
    simp only [Wrap.step, fstep, toState_delim, bind_mapOut, mapOut_bind, mapOut_ok, toState_push]
    rfl
  | display i =>
    simp only [Wrap.step, fstep, toState_stream, bind_mapOut, mapOut_bind, mapOut_ok, toState_push, WStream.display,
      displayW_treesF]
    rfl
  | treeText i =>
    simp only [Wrap.step, fstep, toState_tree, bind_mapOut, mapOut_bind, mapOut_ok, toState_push,
      displayTreeW_treeF]
    rfl
  | byteCharacter b => simp only [Wrap.step, fstep, byteCharacterW, Bool.false_eq_true, if_false, out_bind_ok,
      mapOut_ok, toState_push]; rfl
  | cString bs =>
    simp only [Wrap.step, fstep, cStringW, Bool.false_eq_true, if_false, mapOut_bind, mapOut_ok, toState_push]
    cases Out.ofRes (litCString bs) <;> rfl
  | invalidate => simp [Wrap.step, fstep, toState_push, toState_withSm, toState_sm, FValue.toValue, Plain.toValue]
  | _ =>
    simp only [Wrap.step, fstep, toState_span, toState_tree, toState_stream, bind_mapOut, mapOut_bind, mapOut_ok,
      toState_push, toState_set, toState_sm, toState_withSm, ofText_F, WSpan.byteRange, WSpan.sourceText,
      WSpan.start, WSpan.end_, WSpan.file]
    try rfl


/-- Other calls do not ask whether they are inside a macro. -/
theorem step_mode [Rep σ] (m n : Bool) (s : State σ) (op : Op) (h : ¬ Creates op) :
    Wrap.step m s op = Wrap.step n s op := by
  cases op with
  | collectStreams is =>
    cases is with
    | nil => exact absurd rfl h
    | cons i is =>
      simp only [Wrap.step, State.streams]
      cases s.stream i with
      | ok a => cases s.streams is <;> rfl
      | _ => rfl
  | _ => first | rfl | exact absurd trivial h

/-- **C66.** Outside a macro, the wrapper is the fallback: a program without values of the compiler does
what it does if every call is made to the fallback directly. The values in all variables are the same, and
so are the source map, the panics and the non-termination. Calls that are made on values may also be made
inside a macro, that is, the crate may be told to leave the fallback meanwhile. -/
theorem C66_fallback (s : FState) (ops : List (Bool × Op)) (hi : ∀ x ∈ ops, ¬ Imports x.2)
    (hm : ∀ x ∈ ops, Creates x.2 → x.1 = false) :
    Wrap.run (s.toState : State σ) ops = mapOut FState.toState (frun s (ops.map Prod.snd)) := by
  induction ops generalizing s with
  | nil => rfl
  | cons x ops ih =>
    obtain ⟨m, op⟩ := x
    have e : Wrap.step m (s.toState : State σ) op = Wrap.step false s.toState op := by
      by_cases hc : Creates op
      · rw [show m = _ from hm (m, op) (by simp) hc]
      · exact step_mode _ _ _ _ hc
    simp only [List.map_cons, Wrap.run, frun, e, fallback_step s op (hi (m, op) (by simp)), bind_mapOut, mapOut_bind]
    congr 1
    funext t
    exact ih t (fun x h => hi x (by simp [h])) (fun x h => hm x (by simp [h]))

end fallback

/-! ## States of the compiler -/

section compiler

theorem ctoState_push (s : CState) (v : CValue) : (s.push v).toState = s.toState.push v.toValue := by
  simp [CState.toState, CState.push, State.push]

theorem ctoState_set (s : CState) (i : Nat) (v : CValue) : (s.set i v).toState = s.toState.set i v.toValue := by
  simp [CState.toState, CState.set, State.set, List.map_set]

theorem ctoState_get (s : CState) (i : Nat) : s.toState.vars[i]? = (s.vars[i]?).map CValue.toValue := by
  simp [CState.toState]

theorem ctoState_sm (s : CState) : s.toState.sm = s.sm := rfl

theorem ctoState_withSm (s : CState) (sm : SourceMap) :
    ({ s with sm := sm } : CState).toState = { s.toState with sm := sm } := rfl

theorem ctoState_stream (s : CState) (i : Nat) :
    s.toState.stream i = mapOut (fun ts => .compiler ⟨ts⟩) (s.read CValue.stream? i) := by
  simp only [State.stream, CState.read, ctoState_get]
  cases s.vars[i]? with
  | none => rfl
  | some v => cases v <;> first | rfl | (rename_i v; cases v <;> rfl)

theorem ctoState_tree (s : CState) (i : Nat) : s.toState.tree i = mapOut treeC (s.read CValue.tree? i) := by
  simp only [State.tree, CState.read, ctoState_get]
  cases s.vars[i]? with
  | none => rfl
  | some v => cases v <;> first | rfl | (rename_i v; cases v <;> rfl)

theorem ctoState_span (s : CState) (i : Nat) : s.toState.span i = mapOut .compiler (s.read CValue.span? i) := by
  simp only [State.span, CState.read, ctoState_get]
  cases s.vars[i]? with
  | none => rfl
  | some v => cases v <;> first | rfl | (rename_i v; cases v <;> rfl)

theorem ctoState_delim (s : CState) (i : Nat) :
    s.toState.delim i = mapOut (fun g => .compiler (Compiler.groupSpan g) (Compiler.groupSpanOpen g)
      (Compiler.groupSpanClose g)) (s.read CValue.delim? i) := by
  simp only [State.delim, CState.read, ctoState_get]
  cases s.vars[i]? with
  | none => rfl
  | some v => cases v <;> first | rfl | (rename_i v; cases v <;> rfl)

theorem ctoState_trees (s : CState) (is : List Nat) :
    s.toState.trees is = mapOut (List.map treeC) (s.reads CValue.tree? is) := by
  induction is with
  | nil => rfl
  | cons i is ih =>
    simp only [State.trees, CState.reads, ctoState_tree, ih, bind_mapOut, mapOut_bind]
    rfl

theorem ctoState_streams (s : CState) (is : List Nat) :
    s.toState.streams is = mapOut (List.map fun ts => .compiler ⟨ts⟩) (s.reads CValue.stream? is) := by
  induction is with
  | nil => rfl
  | cons i is ih =>
    simp only [State.streams, CState.reads, ctoState_stream, ih, bind_mapOut, mapOut_bind]
    rfl

theorem unwrapNightlies_C (l : List (List CTree)) :
    unwrapNightlies (l.map fun ts => (.compiler ⟨ts⟩ : WStream Eager)) = .ok (l.map fun ts => ⟨ts⟩) := by
  induction l with
  | nil => rfl
  | cons a l ih => simp only [List.map_cons, unwrapNightlies, WStream.unwrapNightly, ih, out_bind_ok]

theorem spacing_back (sp : CSpacing) : intoSpacing (spacingF sp) = sp := by cases sp <;> rfl

theorem intoCompilerToken_C (t : CTree) : intoCompilerToken (treeC t) = .ok t := by
  cases t <;> simp [treeC, intoCompilerToken, WSpan.unwrapNightly, out_bind_ok, spacing_back]

theorem intoCompilerTokens_C (ts : List CTree) : intoCompilerTokens (ts.map treeC) = .ok ts := by
  induction ts with
  | nil => rfl
  | cons t ts ih => simp only [List.map_cons, intoCompilerTokens, intoCompilerToken_C, ih, out_bind_ok]

theorem ofSpan_C (x : Option CompilerTypes.Span) :
    (CValue.ofSpan x).toValue = Value.ofSpan (x.map .compiler) := by cases x <;> rfl

theorem ofText_C (x : Option (List Char)) : (CValue.ofText x).toValue = Value.ofText x := by cases x <;> rfl

theorem ofCompilerToken_C (t : CTree) : ofCompilerToken t = if supported t then .ok (treeC t) else .panic := by
  cases t with
  | punct ch sp s => cases sp <;> simp [ofCompilerToken, supported, treeC, ofSpacing, spacingF] <;> rfl
  | _ => rfl

theorem delimiterC_eq (d : Delimiter) : intoDelimiter d = delimiterC d := by cases d <;> rfl
theorem delimiterF_eq (d : CDelimiter) : ofDelimiter d = delimiterF d := by cases d <;> rfl

theorem flatMap_tokens (l : List (List CTree)) :
    (l.map fun ts => (⟨ts⟩ : Eager)).flatMap Eager.tokens = l.flatten := by
  induction l with
  | nil => rfl
  | cons a l ih => simp only [List.map_cons, List.flatMap_cons, ih, List.flatten_cons]

variable [UnicodeTables]

theorem debugTreeW_treeC (alternate : Bool) (t : CTree) :
    debugTreeW true alternate (treeC t) = ctreeDebug alternate t := by
  cases t with
  | punct ch sp s => simp only [treeC, debugTreeW, debugSpanFieldW, ctreeDebug]
  | ident i => simp only [treeC, debugTreeW, debugSpanFieldW, ctreeDebug]
  | _ => simp only [treeC, debugTreeW, ctreeDebug]

theorem ofCompilerTokens_C (ts : List CTree) :
    ofCompilerTokens ts = if ts.all supported then .ok (ts.map treeC) else .panic := by
  induction ts with
  | nil => rfl
  | cons t ts ih =>
    simp only [ofCompilerTokens, ofCompilerToken_C, ih]
    cases h : supported t
    · simp [h]; rfl
    · cases h2 : ts.all supported
      · simp only [if_true, if_false, Bool.false_eq_true, out_bind_ok, List.all_cons, h, h2, Bool.and_false]
        rfl
      · simp only [if_true, out_bind_ok, List.all_cons, h, h2, Bool.and_true, List.map_cons]

theorem debugTreesW_treeC (alternate : Bool) (ts : List CTree) :
    debugTreesW true alternate (ts.map treeC) = ts.map (ctreeDebug alternate) := by
  induction ts with
  | nil => rfl
  | cons t ts ih => simp only [List.map_cons, debugTreesW, debugTreeW_treeC, ih]

theorem debug_C (alternate : Bool) (v : CValue) : v.toValue.debug true alternate = v.debug alternate := by
  cases v with
  | tree t => exact congrArg Out.ok (debugTreeW_treeC alternate t)
  | iter ts =>
    simp only [CValue.toValue, Value.debug, CValue.debug, ofCompilerTokens_C]
    split
    · rw [out_bind_ok]
      unfold debugStreamW
      rw [debugTreesW_treeC]
    · rfl
  | plain v => cases v <;> rfl
  | _ => rfl

/-- Close the cases in which the two sides print, compare or convert in different words. -/
local macro "ckind" : tactic => `(tactic| first
  | rfl
  | rw [ofSpan_C]
  | (simp only [CValue.toValue, Plain.toValue, delimiterF_eq]; done)
  | (simp only [CValue.toValue, Plain.toValue]; congr 2; exact Bool.eq_iff_iff.2 (by simp)))

/-- One call inside a macro. -/
theorem compiler_step (s : CState) (op : Op) :
    Wrap.step true s.toState op = mapOut CState.toState (cstep s op) := by
  cases op with
  | fromStr src =>
    simp only [Wrap.step, cstep, WStream.fromStr, ctoState_sm, if_true]
    cases h : TokenStream.fromStr s.sm src with
    | mk sm r =>
      cases r with
      | ok ts =>
        simp only [fromStr2]
        cases Compiler.parseStream src <;>
          simp [out_bind_ok, ctoState_push, ctoState_withSm, CValue.toValue, Rep.new]
      | err e => simp [fromStr2, out_bind_ok, ctoState_push, ctoState_withSm, CValue.toValue]
      | _ => rfl
  | literalFromStr src =>
    simp only [Wrap.step, cstep, Wrap.literalFromStr, ctoState_sm, if_true]
    cases h : Literal.fromStr s.sm src with
    | mk sm r =>
      cases r with
      | ok ts =>
        simp only [fromStr2]
        cases Compiler.parseLiteral src <;>
          simp [out_bind_ok, ctoState_push, ctoState_withSm, CValue.toValue, treeC]
      | err e => simp [fromStr2, out_bind_ok, ctoState_push, ctoState_withSm, CValue.toValue]
      | _ => rfl
  | clone i =>
    simp only [Wrap.step, cstep, ctoState_get, CState.read]
    cases s.vars[i]? with
    | none => rfl
    | some v => simp [Out.typed, out_bind_ok, ctoState_push]
  | literalUnchecked r =>
    simp only [Wrap.step, cstep, Wrap.literalUnchecked, if_true]
    cases Compiler.parseLiteral r <;> simp [out_bind_ok, ctoState_push, CValue.toValue, treeC] <;> rfl
  | groupStream i =>
    simp only [Wrap.step, cstep, State.tree, CState.read, ctoState_get]
    cases s.vars[i]? with
    | none => rfl
    | some v =>
      cases v with
      | tree t => cases t <;> first | rfl | exact congrArg Out.ok (Eq.trans (by ckind) (ctoState_push s _).symm)
      | plain v => cases v <;> rfl
      | _ => rfl
  | spanOpen i =>
    simp only [Wrap.step, cstep, State.tree, CState.read, ctoState_get]
    cases s.vars[i]? with
    | none => rfl
    | some v =>
      cases v with
      | tree t => cases t <;> first | rfl | exact congrArg Out.ok (Eq.trans (by ckind) (ctoState_push s _).symm)
      | plain v => cases v <;> rfl
      | _ => rfl
  | spanClose i =>
    simp only [Wrap.step, cstep, State.tree, CState.read, ctoState_get]
    cases s.vars[i]? with
    | none => rfl
    | some v =>
      cases v with
      | tree t => cases t <;> first | rfl | exact congrArg Out.ok (Eq.trans (by ckind) (ctoState_push s _).symm)
      | plain v => cases v <;> rfl
      | _ => rfl
  | delimiter i =>
    simp only [Wrap.step, cstep, State.tree, CState.read, ctoState_get]
    cases s.vars[i]? with
    | none => rfl
    | some v =>
      cases v with
      | tree t => cases t <;> first | rfl | exact congrArg Out.ok (Eq.trans (by ckind) (ctoState_push s _).symm)
      | plain v => cases v <;> rfl
      | _ => rfl
  | delimSpan i =>
    simp only [Wrap.step, cstep, State.tree, CState.read, ctoState_get]
    cases s.vars[i]? with
    | none => rfl
    | some v =>
      cases v with
      | tree t => cases t <;> first | rfl | exact congrArg Out.ok (Eq.trans (by ckind) (ctoState_push s _).symm)
      | plain v => cases v <;> rfl
      | _ => rfl
  | asChar i =>
    simp only [Wrap.step, cstep, State.tree, CState.read, ctoState_get]
    cases s.vars[i]? with
    | none => rfl
    | some v =>
      cases v with
      | tree t => cases t <;> first | rfl | exact congrArg Out.ok (Eq.trans (by ckind) (ctoState_push s _).symm)
      | plain v => cases v <;> rfl
      | _ => rfl
  | spacing i =>
    simp only [Wrap.step, cstep, State.tree, CState.read, ctoState_get]
    cases s.vars[i]? with
    | none => rfl
    | some v =>
      cases v with
      | tree t => cases t <;> first | rfl | exact congrArg Out.ok (Eq.trans (by ckind) (ctoState_push s _).symm)
      | plain v => cases v <;> rfl
      | _ => rfl
  | identHash i =>
    simp only [Wrap.step, cstep, State.tree, CState.read, ctoState_get]
    cases s.vars[i]? with
    | none => rfl
    | some v =>
      cases v with
      | tree t => cases t <;> first | rfl | exact congrArg Out.ok (Eq.trans (by ckind) (ctoState_push s _).symm)
      | plain v => cases v <;> rfl
      | _ => rfl
  | identEqStr i txt =>
    simp only [Wrap.step, cstep, State.tree, CState.read, ctoState_get]
    cases s.vars[i]? with
    | none => rfl
    | some v =>
      cases v with
      | tree t => cases t <;> first | rfl | exact congrArg Out.ok (Eq.trans (by ckind) (ctoState_push s _).symm)
      | plain v => cases v <;> rfl
      | _ => rfl
  | identEq i j =>
    simp only [Wrap.step, cstep, State.tree, CState.read, ctoState_get]
    cases s.vars[i]? with
    | none => rfl
    | some v =>
      cases v with
      | tree t =>
        cases s.vars[j]? with
        | none => cases t <;> rfl
        | some w =>
          cases w with
          | tree u =>
            cases t <;> cases u <;> first | rfl | exact congrArg Out.ok (Eq.trans (by ckind) (ctoState_push s _).symm)
          | plain w => cases t <;> cases w <;> rfl
          | _ => cases t <;> rfl
      | plain v => cases v <;> rfl
      | _ => rfl
  | identCmp i j =>
    simp only [Wrap.step, cstep, State.tree, CState.read, ctoState_get]
    cases s.vars[i]? with
    | none => rfl
    | some v =>
      cases v with
      | tree t =>
        cases s.vars[j]? with
        | none => cases t <;> rfl
        | some w =>
          cases w with
          | tree u =>
            cases t <;> cases u <;> first | rfl | exact congrArg Out.ok (Eq.trans (by ckind) (ctoState_push s _).symm)
          | plain w => cases t <;> cases w <;> rfl
          | _ => cases t <;> rfl
      | plain v => cases v <;> rfl
      | _ => rfl
  | next i =>
    simp only [Wrap.step, cstep, CState.read, ctoState_get]
    cases s.vars[i]? with
    | none => rfl
    | some v =>
      cases v with
      | iter ts =>
        cases ts with
        | nil => exact congrArg Out.ok (Eq.trans (by ckind) (ctoState_push s _).symm)
        | cons t ts =>
          simp only [Option.map_some, CValue.toValue, CValue.iter?, Out.typed, out_bind_ok, ofCompilerToken_C]
          split
          · simp only [out_bind_ok, mapOut_ok, ctoState_push, ctoState_set]
            rfl
          · rfl
      | plain v => cases v <;> rfl
      | _ => rfl
  | errorSpan i =>
    simp only [Wrap.step, cstep, CState.read, ctoState_get]
    cases s.vars[i]? with
    | none => rfl
    | some v =>
      cases v with
      | error e => exact congrArg Out.ok (Eq.trans (by ckind) (ctoState_push s _).symm)
      | noParse => exact congrArg Out.ok (Eq.trans (by ckind) (ctoState_push s _).symm)
      | plain v => cases v <;> rfl
      | _ => rfl
  | sizeHint i =>
    simp only [Wrap.step, cstep, CState.read, ctoState_get]
    cases s.vars[i]? with
    | none => rfl
    | some v =>
      cases v with
      | iter ts => exact congrArg Out.ok (Eq.trans (by ckind) (ctoState_push s _).symm)
      | plain v => cases v <;> rfl
      | _ => rfl
  | value k i =>
    simp only [Wrap.step, cstep, State.tree, CState.read, ctoState_get, valueOfText_eq]
    cases s.vars[i]? with
    | none => rfl
    | some v =>
      cases v with
      | tree t =>
        cases t with
        | literal l =>
          show (Out.ofRes (literalValue (Compiler.literalText l) k)).bind _ = mapOut _ ((Out.ofRes (literalValue (Compiler.literalText l) k)).bind _)
          cases literalValue (Compiler.literalText l) k <;> first | rfl | exact congrArg Out.ok (Eq.trans (by ckind) (ctoState_push s _).symm)
        | _ => rfl
      | plain v => cases v <;> rfl
      | _ => rfl
  | errorText i =>
    simp only [Wrap.step, cstep, CState.read, ctoState_get]
    cases s.vars[i]? with
    | none => rfl
    | some v =>
      cases v with
      | error e => exact congrArg Out.ok (Eq.trans (by ckind) (ctoState_push s _).symm)
      | noParse => exact congrArg Out.ok (Eq.trans (by ckind) (ctoState_push s _).symm)
      | plain v => cases v <;> rfl
      | _ => rfl
  | debug alternate i =>
    simp only [Wrap.step, cstep, CState.read, ctoState_get]
    cases s.vars[i]? with
    | none => rfl
    | some v =>
      simp only [Option.map_some, Out.typed, out_bind_ok, debug_C, mapOut_bind, mapOut_ok, ctoState_push]
      rfl
  | debugIdent alternate i =>
    simp only [Wrap.step, cstep, State.tree, CState.read, ctoState_get]
    cases s.vars[i]? with
    | none => rfl
    | some v =>
      cases v with
      | tree t => cases t <;> first | rfl | exact congrArg Out.ok (Eq.trans (by ckind) (ctoState_push s _).symm)
      | plain v => cases v <;> rfl
      | _ => rfl
  | collectStreams is =>
    simp only [Wrap.step, cstep, ctoState_streams, bind_mapOut, mapOut_bind]
    congr 1
    funext l
    cases l with
    | nil => simp [WStream.collectStreams, WStream.new, out_bind_ok, ctoState_push, CValue.toValue, Rep.new]
    | cons a l =>
      simp only [List.map_cons, WStream.collectStreams, WStream.extendStreams, unwrapNightlies_C, out_bind_ok,
        mapOut_ok, ctoState_push, CValue.toValue, Rep.extendStreams, flatMap_tokens, List.flatten_cons]
  | extendStreams i js =>
    simp only [Wrap.step, cstep, ctoState_stream, ctoState_streams, bind_mapOut, mapOut_bind, WStream.extendStreams,
      unwrapNightlies_C, out_bind_ok, mapOut_ok, ctoState_set, CValue.toValue, Rep.extendStreams, flatMap_tokens]
  | punctNew ch sp =>
    simp only [Wrap.step, cstep, Wrap.punctNew]
    split
    · cases sp <;> simp [out_bind_ok, ctoState_push, CValue.toValue, treeC, WSpan.callSite, spacingC, spacingF]
    · rfl
  | join i j =>
    simp only [Wrap.step, cstep, ctoState_span, bind_mapOut, mapOut_bind, WSpan.join, mapOut_ok, out_bind_ok,
      ctoState_push, ofSpan_C]
    congr 1; funext a; congr 1; funext b
    cases Compiler.cfgSpan <;> rfl
  | identNew t i =>
    simp only [Wrap.step, cstep, ctoState_span, bind_mapOut, mapOut_bind, identNewW, mapOut_ok, ctoState_push,
      CValue.toValue]
    congr 1; funext a
    cases Out.ofOption (Compiler.identNew t a) <;> rfl
  | identNewRaw t i =>
    simp only [Wrap.step, cstep, ctoState_span, bind_mapOut, mapOut_bind, identNewRawW, mapOut_ok, ctoState_push,
      CValue.toValue]
    congr 1; funext a
    cases Out.ofOption (Compiler.identNewRaw t a) <;> rfl
  | setSpan i j =>
    simp only [Wrap.step, cstep, ctoState_span, ctoState_tree, bind_mapOut, mapOut_bind, mapOut_ok, ctoState_set,
      CValue.toValue]
    congr 1; funext t; congr 1; funext a
    cases t <;> rfl
  | span i =>
    simp only [Wrap.step, cstep, ctoState_tree, bind_mapOut, mapOut_bind, mapOut_ok, ctoState_push, CValue.toValue]
    congr 1; funext t
    cases t <;> rfl
  | treeText i =>
    simp only [Wrap.step, cstep, ctoState_tree, bind_mapOut, mapOut_bind, mapOut_ok, ctoState_push]
    congr 1; funext t
    cases t <;> rfl
  | fromTree i =>
    simp [Wrap.step, cstep, ctoState_tree, bind_mapOut, mapOut_bind, WStream.fromTree, intoCompilerToken_C,
      out_bind_ok, ctoState_push, CValue.toValue, Rep.new]
  | collectTrees is =>
    simp [Wrap.step, cstep, ctoState_trees, bind_mapOut, mapOut_bind, WStream.collectTrees, intoCompilerTokens_C,
      out_bind_ok, ctoState_push, CValue.toValue, Rep.new]
  | extendTrees i js =>
    simp [Wrap.step, cstep, ctoState_stream, ctoState_trees, bind_mapOut, mapOut_bind, WStream.extendTrees,
      intoCompilerTokens_C, out_bind_ok, ctoState_set, CValue.toValue, Rep.extendTrees]
  | delimJoin i =>
    simp only [Wrap.step, cstep, ctoState_delim, bind_mapOut, mapOut_bind, mapOut_ok, ctoState_push]
    rfl
  | delimOpen i =>
    simp only [Wrap.step, cstep, ctoState_delim, bind_mapOut, mapOut_bind, mapOut_ok, ctoState_push]
    rfl
  | delimClose i =>
    simp only [Wrap.step, cstep, ctoState_delim, bind_mapOut, mapOut_bind, mapOut_ok, ctoState_push]
    rfl
  | groupNew d i =>
    simp only [Wrap.step, cstep, ctoState_stream, bind_mapOut, mapOut_bind, mapOut_ok, ctoState_push, groupNewW,
      delimiterC_eq]
    rfl
  | invalidate => rfl
  | subspan i a b =>
    simp only [Wrap.step, cstep, State.tree, CState.read, ctoState_get]
    cases s.vars[i]? with
    | none => rfl
    | some v =>
      cases v with
      | tree t =>
        cases t with
        | literal l =>
          refine congrArg Out.ok (Eq.trans ?_ (ctoState_push s _).symm)
          rw [ofSpan_C]
          cases Compiler.cfgSpan <;> rfl
        | _ => rfl
      | plain v => cases v <;> rfl
      | _ => rfl
  | byteRange i =>
    simp only [Wrap.step, cstep, ctoState_span, bind_mapOut, mapOut_bind, WSpan.byteRange]
    congr 1; funext a
    split <;> simp only [out_bind_ok, mapOut_ok, ctoState_push] <;> rfl
  | start i =>
    simp only [Wrap.step, cstep, ctoState_span, bind_mapOut, mapOut_bind, WSpan.start]
    congr 1; funext a
    split <;> simp only [out_bind_ok, mapOut_ok, ctoState_push] <;> rfl
  | end_ i =>
    simp only [Wrap.step, cstep, ctoState_span, bind_mapOut, mapOut_bind, WSpan.end_]
    congr 1; funext a
    split <;> simp only [out_bind_ok, mapOut_ok, ctoState_push] <;> rfl
  | file i =>
    simp only [Wrap.step, cstep, ctoState_span, bind_mapOut, mapOut_bind, WSpan.file]
    congr 1; funext a
    split <;> (rw [out_bind_ok, mapOut_ok, ctoState_push]; rfl)
  | localFile i =>
    simp only [Wrap.step, cstep, ctoState_span, bind_mapOut, mapOut_bind, WSpan.localFile]
    congr 1; funext a
    split <;> simp only [mapOut_ok, ctoState_push, ofText_C] <;> rfl
  | sourceText i =>
    simp only [Wrap.step, cstep, ctoState_span, bind_mapOut, mapOut_bind, WSpan.sourceText]
    congr 1; funext a
    split <;> simp only [out_bind_ok, mapOut_ok, ctoState_push, ofText_C] <;> rfl
  | byteCharacter b =>
    simp only [Wrap.step, cstep, byteCharacterW, Wrap.literalUnchecked, if_true]
    split
    · simp only [out_bind_ok, mapOut_ok, ctoState_push]; rfl
    · cases Compiler.parseLiteral (litByteCharacter b) <;> simp [out_bind_ok, ctoState_push, CValue.toValue, treeC] <;> rfl
  | cString bs =>
    simp only [Wrap.step, cstep, cStringW, Wrap.literalUnchecked, if_true]
    split
    · simp only [out_bind_ok, mapOut_ok, ctoState_push]; rfl
    · cases Out.ofRes (litCString bs) with
      | ok r => 
        simp only [out_bind_ok]
        cases Compiler.parseLiteral r <;> simp [out_bind_ok, ctoState_push, CValue.toValue, treeC] <;> rfl
      | _ => rfl
  | new => simp [Wrap.step, cstep, WStream.new, ctoState_push, CValue.toValue, Rep.new]
  | _ =>
    simp only [Wrap.step, cstep, ctoState_span, ctoState_tree, ctoState_stream, bind_mapOut, mapOut_bind, mapOut_ok,
      out_bind_ok, ctoState_push, ctoState_set, ctoState_sm, ctoState_withSm, ofText_C, WSpan.byteRange,
      WSpan.sourceText, WSpan.start, WSpan.end_, WSpan.file, WSpan.unwrap, WStream.intoCompiler]
    try rfl

/-- A program inside a macro, with streams that are appended to at once. -/
theorem compiler_run (s : CState) (ops : List (Bool × Op)) (hm : ∀ x ∈ ops, Creates x.2 → x.1 = true) :
    Wrap.run s.toState ops = mapOut CState.toState (crun s (ops.map Prod.snd)) := by
  induction ops generalizing s with
  | nil => rfl
  | cons x ops ih =>
    obtain ⟨m, op⟩ := x
    have e : Wrap.step m s.toState op = Wrap.step true s.toState op := by
      by_cases hc : Creates op
      · rw [show m = _ from hm (m, op) (by simp) hc]
      · exact step_mode _ _ _ _ hc
    simp only [List.map_cons, Wrap.run, crun, e, compiler_step, bind_mapOut, mapOut_bind]
    congr 1
    funext t
    exact ih t (fun x h => hm x (by simp [h]))

/-- **C67.** Inside a macro, the wrapper is the compiler's API: a program without values of the fallback
does what it does if every call is made to the compiler directly, except that the fallback validates texts
before they are parsed, and that `Punct` takes only the punctuation of `Punct::new`. The values in all
variables are the same, if pending trees are counted as part of their streams. Calls that are made on values
may also be made outside, that is, the crate may be told to use the fallback meanwhile. -/
theorem C67_compiler (he : ∀ t : CTree, Compiler.enter t ≠ []) (s : State Deferred) (c : CState)
    (hs : mapState now s = c.toState) (ops : List (Bool × Op)) (hm : ∀ x ∈ ops, Creates x.2 → x.1 = true) :
    mapOut (mapState now) (Wrap.run s ops) = mapOut CState.toState (crun c (ops.map Prod.snd)) := by
  rw [← C56_deferred he, hs, compiler_run c ops hm]

end compiler

/-! ## From the fallback to the compiler -/

section handover
variable [UnicodeTables] [LawfulUnicode] {σ : Type} [Rep σ]

/-- **C68.** A stream of the fallback is turned into the compiler's, in either mode, by printing and
parsing. If the compiler's parser accepts what the fallback's does and gives streams that are alike, then
the conversion does not panic and gives a stream that is like the one converted, if it could have been
parsed at all. -/
theorem C68_handover {Alike : List CTree → List TokenTree → Prop}
    (hp : ∀ text ts, Room [] text → (TokenStream.fromStr SourceMap.init text).2 = .ok ts →
      ∃ cs, Compiler.parseStream text = .ok cs ∧ Alike cs (erase ts))
    (m : Bool) (s : State σ) {i : Nat} {ts : List TokenTree} (hw : WF ts) (hr : Room [] (display ts))
    (hi : s.vars[i]? = some (.stream (.fallback (treesF ts)))) :
    ∃ cs, Wrap.step m s (.intoCompiler i) = .ok (s.push (.streamC cs)) ∧ Alike cs (erase ts) := by
  obtain ⟨ts', h1, h2⟩ := C03_lossless hw .init hr
  obtain ⟨cs, h3, h4⟩ := hp _ _ hr h1
  refine ⟨cs, ?_, h2 ▸ h4⟩
  simp only [Wrap.step, State.stream, hi, out_bind_ok, WStream.intoCompiler, displayW_treesF, h3]

end handover
end

/-! ## Concrete cases -/

section examples
attribute [local instance] sampleCompiler sampleTables sampleTables_lawful

/-- The last text that was printed. -/
private def printed {σ : Type} : Out (State σ) → Option (List Char)
  | .ok s =>
    match s.vars.getLast? with
    | some (.text t) => some t
    | _ => none
  | _ => none

/-- Outside a macro, a text is parsed; inside, a group is made of it, and printed. -/
private def programF : List (Bool × Op) :=
  [(false, .fromStr "x, 1".toList), (true, .groupNew .bracket 0), (true, .treeText 1)]

/-- C66 -/
example : Wrap.run (FState.toState ⟨SourceMap.init, []⟩ : State Deferred) programF =
      mapOut FState.toState (frun ⟨SourceMap.init, []⟩ (programF.map Prod.snd)) ∧
    printed (Wrap.run (State.init : State Deferred) programF) = some "[x , 1]".toList :=
  ⟨C66_fallback _ _ (by simp [programF, Imports]) (by simp [programF, Creates]), by decide +kernel⟩

/-- Inside a macro, a negative literal enters a stream; outside, another is appended, and the stream is
printed. -/
private def programC : List (Bool × Op) :=
  [(true, .literalNew ['-', '1']), (true, .fromTree 0), (false, .extendTrees 1 [0]), (false, .display 1)]

/-- C67 -/
example : mapOut (mapState now) (Wrap.run (State.init : State Deferred) programC) =
      mapOut CState.toState (crun ⟨SourceMap.init, []⟩ (programC.map Prod.snd)) ∧
    printed (Wrap.run (State.init : State Deferred) programC) = some "- 1 - 1 ".toList :=
  ⟨C67_compiler sampleEnter_ne _ ⟨SourceMap.init, []⟩ rfl _ (by simp [programC, Creates]), by decide +kernel⟩

/-- Outside a macro, a text is parsed and shown by `Debug`. -/
private def debugF : List (Bool × Op) := [(false, .fromStr "x -".toList), (true, .debug false 0)]

example : printed (Wrap.run (State.init : State Deferred) debugF) =
    some "TokenStream [Ident { sym: x, span: bytes(1..2) }, Punct { char: '-', spacing: Alone, span: bytes(3..4) }]".toList := by
  decide +kernel

/-- Inside a macro, a stream, an iterator over it and an identifier are shown. -/
private def debugC (i : Nat) : List (Bool × Op) :=
  [(true, .callSite), (true, .identNew ['x'] 0), (true, .punctNew '+' .joint), (true, .collectTrees [2, 1]),
    (true, .intoIter 3), (false, .debug false i)]

example : printed (Wrap.run (State.init : State Deferred) (debugC 3)) = some "<+x>".toList ∧
    printed (Wrap.run (State.init : State Deferred) (debugC 4)) =
      some "TokenStream [Punct { char: '+', spacing: Joint, span: #7 }, Ident { sym: x, span: #7 }]".toList ∧
    printed (Wrap.run (State.init : State Deferred) (debugC 1)) = some "Ident { sym: x, span: #7 }".toList := by
  refine ⟨?_, ?_, ?_⟩ <;> decide +kernel

end examples

/-! ### A compiler that accepts what the fallback does -/

section examples
attribute [local instance] sampleTypes sampleTables sampleTables_lawful

private def treeOf : TokenTree → CTree
  | .group d ts _ => .group (delimiterC d, display ts, (0 : Nat))
  | .punct ch sp _ => .punct ch (spacingC sp) (0 : Nat)
  | .ident sym _ _ => .ident (sym, (0 : Nat))
  | .literal r _ => .literal (r, (0 : Nat))

@[reducible] private def agreeing : Compiler :=
  { sampleCompiler with
    parseStream := fun t =>
      match (TokenStream.fromStr SourceMap.init t).2 with
      | .ok ts => .ok ((erase ts).map treeOf)
      | _ => .err t }

attribute [local instance] agreeing

private theorem agreeing_parse (text : List Char) (ts : List TokenTree)
    (h : (TokenStream.fromStr SourceMap.init text).2 = .ok ts) :
    Compiler.parseStream text = .ok ((erase ts).map treeOf) := by
  show (match (TokenStream.fromStr SourceMap.init text).2 with
    | .ok ts => Outcome.ok ((erase ts).map treeOf)
    | _ => .err text) = _
  rw [h]

/-- C68: the conversion of a stream with nested groups succeeds. -/
example : ∃ t, Wrap.step true (⟨SourceMap.init, [.stream (.fallback (treesF sampleStream))]⟩ : State Deferred)
    (.intoCompiler 0) = .ok t :=
  let ⟨_, h, _⟩ := C68_handover (Alike := fun cs ts => cs = ts.map treeOf)
    (fun text ts _ h => ⟨_, agreeing_parse text ts h, rfl⟩) true
    (⟨SourceMap.init, [.stream (.fallback (treesF sampleStream))]⟩ : State Deferred) sampleStream_wf
    (by decide +kernel) (i := 0) rfl
  ⟨_, h⟩

end examples

end PM2.Props
