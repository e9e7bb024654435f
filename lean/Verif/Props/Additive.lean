import Verif.Spec.Additive
import Verif.Props.Wrapper
import Verif.Props.NoSpan
/-! # C93: turning on `span_locations` changes nothing but positions -/

namespace PM2.Props
open Spec Wrap

section
variable [Compiler] {σ : Type}

@[simp] theorem eraseTreesW_map (ts : List Tree) : eraseTreesW ts = ts.map eraseTreeW := by
  induction ts with
  | nil => rfl
  | cons t ts ih => simp [eraseTreesW, ih]

@[simp] theorem spanMode_erase (s : WSpan) : spanMode (eraseSpanW s) = spanMode s := by cases s <;> rfl

theorem eraseSpanW_of_mode {s : WSpan} (h : spanMode s = true) : eraseSpanW s = s := by
  cases s with
  | compiler s => rfl
  | fallback s => simp [spanMode] at h

theorem eraseTreeW_of_mode {t : Tree} (h : treeMode t = true) : eraseTreeW t = t := by
  cases t <;> simp_all [treeMode, eraseTreeW, eraseSpanW_of_mode]

/-! ## Functions -/

mutual
theorem displayTreeW_erase (t : Tree) : displayTreeW (eraseTreeW t) = displayTreeW t := by
  cases t with
  | groupF d ts s =>
    rw [eraseTreeW, displayTreeW, displayTreeW, displayLoopW_erase ts, eraseTreesW_map, List.isEmpty_map]
  | _ => rfl
theorem displayLoopW_erase (ts : List Tree) (first joint : Bool) :
    displayLoopW (eraseTreesW ts) first joint = displayLoopW ts first joint := by
  cases ts with
  | nil => rfl
  | cons t ts =>
    have hj : jointAfterW (eraseTreeW t) = jointAfterW t := by cases t <;> rfl
    simp only [eraseTreesW, displayLoopW, displayTreeW_erase t, displayLoopW_erase ts, hj]
end

theorem intoCompilerToken_erase (t : Tree) : intoCompilerToken (eraseTreeW t) = intoCompilerToken t := by
  cases t with
  | punct ch sp s => cases s <;> rfl
  | _ => rfl

theorem intoCompilerTokens_erase (ts : List Tree) :
    intoCompilerTokens (ts.map eraseTreeW) = intoCompilerTokens ts := by
  induction ts with
  | nil => rfl
  | cons t ts ih => simp only [List.map_cons, intoCompilerTokens, intoCompilerToken_erase, ih]

theorem pushTree_erase (t : Tree) : pushTree (eraseTreeW t) = (pushTree t).map eraseTreeW := by
  cases t with
  | literalF r s =>
    cases r with
    | nil => rfl
    | cons c r =>
      simp only [eraseTreeW, pushTree]
      split <;> simp_all [eraseTreeW, eraseSpanW]
  | _ => simp [pushTree, eraseTreeW]

theorem flatMap_pushTree_erase (ts : List Tree) :
    (ts.map eraseTreeW).flatMap pushTree = (ts.flatMap pushTree).map eraseTreeW := by
  induction ts with
  | nil => rfl
  | cons t ts ih => simp [pushTree_erase, ih]

mutual
theorem ofFallback_erase (t : TokenTree) :
    eraseTreeW (Tree.ofFallback t) = Tree.ofFallback (mapSpanTree (fun _ => Span.callSite) t) := by
  cases t with
  | group d ts s => simp only [Tree.ofFallback, eraseTreeW, mapSpanTree, ofFallbacks_erase ts]; rfl
  | _ => rfl
theorem ofFallbacks_erase (ts : List TokenTree) :
    eraseTreesW (Tree.ofFallbacks ts) = Tree.ofFallbacks (erase ts) := by
  cases ts with
  | nil => rfl
  | cons t ts =>
    simp only [Tree.ofFallbacks, eraseTreesW, erase, mapSpan, ofFallback_erase t]
    rw [ofFallbacks_erase ts]; rfl
end

/-! ## States -/

theorem eraseState_push (s : State σ) (v : Value σ) :
    eraseState (s.push v) = (eraseState s).push (eraseValue v) := by simp [eraseState, State.push]

theorem eraseState_set (s : State σ) (i : Nat) (v : Value σ) :
    eraseState (s.set i v) = (eraseState s).set i (eraseValue v) := by simp [eraseState, State.set, List.map_set]

theorem eraseState_sm (s : State σ) (sm : SourceMap) : eraseState { s with sm := sm } = eraseState s := rfl

theorem eraseState_get (s : State σ) (i : Nat) : (eraseState s).vars[i]? = (s.vars[i]?).map eraseValue := by
  simp [eraseState]

theorem eraseState_stream (s : State σ) (i : Nat) :
    (eraseState s).stream i = mapOut eraseStreamW (s.stream i) := by
  simp only [State.stream, eraseState_get]
  cases s.vars[i]? with
  | none => rfl
  | some v => cases v <;> rfl

theorem eraseState_tree (s : State σ) (i : Nat) : (eraseState s).tree i = mapOut eraseTreeW (s.tree i) := by
  simp only [State.tree, eraseState_get]
  cases s.vars[i]? with
  | none => rfl
  | some v => cases v <;> rfl

theorem eraseState_span (s : State σ) (i : Nat) : (eraseState s).span i = mapOut eraseSpanW (s.span i) := by
  simp only [State.span, eraseState_get]
  cases s.vars[i]? with
  | none => rfl
  | some v => cases v <;> rfl

theorem eraseState_delim (s : State σ) (i : Nat) : (eraseState s).delim i = mapOut eraseDelimW (s.delim i) := by
  simp only [State.delim, eraseState_get]
  cases s.vars[i]? with
  | none => rfl
  | some v => cases v <;> rfl

theorem eraseState_trees (s : State σ) (is : List Nat) :
    (eraseState s).trees is = mapOut (List.map eraseTreeW) (s.trees is) := by
  induction is with
  | nil => rfl
  | cons i is ih => simp only [State.trees, eraseState_tree, ih, bind_mapOut, mapOut_bind]; rfl

theorem eraseState_streams (s : State σ) (is : List Nat) :
    (eraseState s).streams is = mapOut (List.map eraseStreamW) (s.streams is) := by
  induction is with
  | nil => rfl
  | cons i is ih => simp only [State.streams, eraseState_stream, ih, bind_mapOut, mapOut_bind]; rfl

/-! ## Calls -/

variable [Rep σ]

theorem isEmpty_erase (x : WStream σ) : (eraseStreamW x).isEmpty = x.isEmpty := by
  cases x <;> simp [eraseStreamW, WStream.isEmpty]

theorem wdisplay_erase (x : WStream σ) : (eraseStreamW x).display = x.display := by
  cases x with
  | compiler s => rfl
  | fallback ts => exact displayLoopW_erase ts true false

theorem intoCompiler_erase (x : WStream σ) : (eraseStreamW x).intoCompiler = x.intoCompiler := by
  cases x with
  | compiler s => rfl
  | fallback ts => simp only [eraseStreamW, WStream.intoCompiler, displayLoopW_erase]

theorem fromTree_erase (inside : Bool) (t : Tree) :
    (WStream.fromTree inside (eraseTreeW t) : Out (WStream σ)) =
      mapOut eraseStreamW (WStream.fromTree inside t) := by
  cases inside
  · simp [WStream.fromTree, pushTree_erase, eraseStreamW]
  · simp only [WStream.fromTree, if_true, intoCompilerToken_erase, mapOut_bind]; rfl

theorem collectTrees_erase (inside : Bool) (ts : List Tree) :
    (WStream.collectTrees inside (ts.map eraseTreeW) : Out (WStream σ)) =
      mapOut eraseStreamW (WStream.collectTrees inside ts) := by
  cases inside
  · simp [WStream.collectTrees, flatMap_pushTree_erase, eraseStreamW]
  · simp only [WStream.collectTrees, if_true, intoCompilerTokens_erase, mapOut_bind]; rfl

theorem extendTrees_erase (x : WStream σ) (ts : List Tree) :
    (eraseStreamW x).extendTrees (ts.map eraseTreeW) = mapOut eraseStreamW (x.extendTrees ts) := by
  cases x with
  | compiler s => simp only [eraseStreamW, WStream.extendTrees, intoCompilerTokens_erase, mapOut_bind]; rfl
  | fallback us => simp [eraseStreamW, WStream.extendTrees, flatMap_pushTree_erase]

omit [Rep σ] in
theorem unwrapNightlies_erase (xs : List (WStream σ)) :
    unwrapNightlies (xs.map eraseStreamW) = unwrapNightlies xs := by
  induction xs with
  | nil => rfl
  | cons x xs ih =>
    cases x with
    | compiler s => simp only [List.map_cons, unwrapNightlies, ih]; rfl
    | fallback ts => rfl

omit [Rep σ] in
theorem unwrapStables_erase (xs : List (WStream σ)) :
    unwrapStables (xs.map eraseStreamW) = mapOut (List.map eraseTreesW) (unwrapStables xs) := by
  induction xs with
  | nil => rfl
  | cons x xs ih =>
    cases x with
    | compiler s => rfl
    | fallback ts =>
      simp only [List.map_cons, unwrapStables, eraseStreamW, WStream.unwrapStable, out_bind_ok, ih, bind_mapOut,
        mapOut_bind]
      rfl

theorem extendStreams_erase (x : WStream σ) (xs : List (WStream σ)) :
    (eraseStreamW x).extendStreams (xs.map eraseStreamW) = mapOut eraseStreamW (x.extendStreams xs) := by
  cases x with
  | compiler s => simp only [eraseStreamW, WStream.extendStreams, unwrapNightlies_erase, mapOut_bind]; rfl
  | fallback us =>
    simp only [eraseStreamW, WStream.extendStreams, unwrapStables_erase, mapOut_bind, bind_mapOut, mapOut_ok,
      eraseTreesW_map, List.map_append, List.map_flatten]
    have : (eraseTreesW : List Tree → List Tree) = List.map eraseTreeW := funext eraseTreesW_map
    rw [this]

theorem new_erase (inside : Bool) : eraseStreamW (WStream.new inside : WStream σ) = WStream.new inside := by
  cases inside <;> rfl

theorem collectStreams_erase (inside : Bool) (xs : List (WStream σ)) :
    WStream.collectStreams inside (xs.map eraseStreamW) = mapOut eraseStreamW (WStream.collectStreams inside xs) := by
  cases xs with
  | nil => simp [WStream.collectStreams, new_erase]
  | cons x xs => exact extendStreams_erase x xs

theorem intoIter_erase (x : WStream σ) : (eraseStreamW x).intoIter = eraseValue x.intoIter := by
  cases x <;> rfl

theorem groupNew_erase (d : Delimiter) (x : WStream σ) :
    groupNewW d (eraseStreamW x) = eraseTreeW (groupNewW d x) := by cases x <;> rfl

theorem stream_erase (t : Tree) : ((eraseTreeW t).stream : Option (WStream σ)) = t.stream.map eraseStreamW := by
  cases t <;> rfl

omit [Rep σ]

theorem span_erase (t : Tree) : (eraseTreeW t).span = eraseSpanW t.span := by cases t <;> rfl

theorem resolvedAt_erase (a b : WSpan) :
    (eraseSpanW a).resolvedAt (eraseSpanW b) = mapOut eraseSpanW (a.resolvedAt b) := by
  cases a <;> cases b <;> rfl

theorem locatedAt_erase (a b : WSpan) :
    (eraseSpanW a).locatedAt (eraseSpanW b) = mapOut eraseSpanW (a.locatedAt b) := by
  cases a <;> cases b <;> rfl

theorem unwrap_erase (a : WSpan) : (eraseSpanW a).unwrap = a.unwrap := by cases a <;> rfl

theorem setSpan_erase (t : Tree) (a : WSpan) :
    (eraseTreeW t).setSpan (eraseSpanW a) = mapOut eraseTreeW (t.setSpan a) := by
  cases t <;> cases a <;> rfl

theorem identEq_erase (t u : Tree) : (eraseTreeW t).identEq (eraseTreeW u) = t.identEq u := by
  cases t <;> cases u <;> rfl

theorem identEqStr_erase (t : Tree) (x : List Char) : (eraseTreeW t).identEqStr x = t.identEqStr x := by
  cases t <;> rfl

theorem identText_erase (t : Tree) : (eraseTreeW t).identText = t.identText := by cases t <;> rfl

theorem literalText_erase (t : Tree) : (eraseTreeW t).literalText = t.literalText := by cases t <;> rfl

theorem delimiter_erase (t : Tree) : (eraseTreeW t).delimiter = t.delimiter := by cases t <;> rfl

theorem asChar_erase (t : Tree) : (eraseTreeW t).asChar = t.asChar := by cases t <;> rfl

theorem spacing_erase (t : Tree) : (eraseTreeW t).spacing = t.spacing := by cases t <;> rfl

theorem delimSpan_erase (t : Tree) : (eraseTreeW t).delimSpan = t.delimSpan.map eraseDelimW := by cases t <;> rfl

theorem delimJoin_erase (d : WDelim) : (eraseDelimW d).join = eraseSpanW d.join := by cases d <;> rfl

theorem delimOpen_erase (d : WDelim) : NoSpan.delimOpen (eraseDelimW d) = eraseSpanW d.open_ := by cases d <;> rfl

theorem delimClose_erase (d : WDelim) : NoSpan.delimClose (eraseDelimW d) = eraseSpanW d.close := by
  cases d <;> rfl

theorem spanOpen_erase (t : Tree) : NoSpan.spanOpen (eraseTreeW t) = t.spanOpen.map eraseSpanW := by
  cases t <;> rfl

theorem spanClose_erase (t : Tree) : NoSpan.spanClose (eraseTreeW t) = t.spanClose.map eraseSpanW := by
  cases t <;> rfl

theorem errorSpan_erase (inside : Bool) (e : LexError) : (eraseError e).span inside = eraseSpanW (e.span inside) := by
  cases e <;> cases inside <;> rfl

theorem errorText_erase (e : LexError) : (eraseError e).text = e.text := by cases e <;> rfl

theorem callSite_erase (inside : Bool) : eraseSpanW (WSpan.callSite inside) = WSpan.callSite inside := by
  cases inside <;> rfl

theorem mixedSite_erase (inside : Bool) : eraseSpanW (WSpan.mixedSite inside) = WSpan.mixedSite inside := by
  cases inside <;> rfl

theorem literalNewW_erase (inside : Bool) (r : List Char) : eraseTreeW (literalNewW inside r) = literalNewW inside r := by
  cases inside <;> rfl

theorem literalUnchecked_erase (inside : Bool) (r : List Char) :
    mapOut eraseTreeW (Wrap.literalUnchecked inside r) = Wrap.literalUnchecked inside r := by
  cases inside
  · rfl
  · simp only [Wrap.literalUnchecked, if_true]
    cases Compiler.parseLiteral r <;> rfl

theorem byteCharacterW_erase (inside : Bool) (b : UInt8) :
    mapOut eraseTreeW (byteCharacterW inside b) = byteCharacterW inside b := by
  cases inside
  · rfl
  · simp only [byteCharacterW, if_true]
    split
    · rfl
    · exact literalUnchecked_erase true _

theorem punctNew_erase (inside : Bool) (ch : Char) (sp : Spacing) :
    mapOut eraseTreeW (Wrap.punctNew inside ch sp) = Wrap.punctNew inside ch sp := by
  simp only [Wrap.punctNew]
  split
  · simp [eraseTreeW, callSite_erase]
  · rfl

theorem ofCompilerToken_erase (t : CTree) : mapOut eraseTreeW (ofCompilerToken t) = ofCompilerToken t := by
  cases t with
  | punct ch sp s =>
    simp only [ofCompilerToken]
    split <;> rfl
  | _ => rfl

variable [UnicodeTables]

theorem cStringW_erase (inside : Bool) (bs : List UInt8) :
    mapOut eraseTreeW (cStringW inside bs) = cStringW inside bs := by
  cases inside
  · simp only [cStringW, Bool.false_eq_true, if_false, mapOut_bind]; rfl
  · simp only [cStringW, if_true]
    split
    · rfl
    · simp only [mapOut_bind, literalUnchecked_erase]

theorem identNewW_erase (x : List Char) (a : WSpan) :
    identNewW x (eraseSpanW a) = mapOut eraseTreeW (identNewW x a) := by
  cases a with
  | compiler a => simp only [eraseSpanW, identNewW, mapOut_bind]; rfl
  | fallback a =>
    simp only [eraseSpanW, identNewW, mapOut_bind, Ident.new]
    cases validateIdent (ε := Unit) x <;> rfl

theorem identNewRawW_erase (x : List Char) (a : WSpan) :
    identNewRawW x (eraseSpanW a) = mapOut eraseTreeW (identNewRawW x a) := by
  cases a with
  | compiler a => simp only [eraseSpanW, identNewRawW, mapOut_bind]; rfl
  | fallback a =>
    simp only [eraseSpanW, identNewRawW, mapOut_bind, Ident.newRaw]
    cases validateIdentRaw (ε := Unit) x <;> rfl

theorem bind_congr {α β : Type} {x : Out α} {f g : α → Out β} (h : ∀ a, x = .ok a → f a = g a) :
    (x >>= f) = (x >>= g) := by
  cases x with
  | ok a => exact h a rfl
  | _ => rfl

theorem span_get {s : State σ} {i : Nat} {a : WSpan} (h : s.span i = .ok a) : s.vars[i]? = some (.span a) :=
  span_ok.mp h

section
variable [Rep σ]

theorem debug_hidden {v : Value σ} (h : HidesSpans v) (alternate : Bool) :
    (eraseValue v).debug false alternate = v.debug true alternate := by
  have htree : ∀ t : Tree, treeMode t = true →
      debugTreeW false alternate (eraseTreeW t) = debugTreeW true alternate t := by
    intro t ht
    rw [eraseTreeW_of_mode ht]
    cases t with
    | punct ch sp s =>
      cases s with
      | compiler s => simp only [debugTreeW, debugSpanFieldW]
      | fallback s => simp [treeMode, spanMode] at ht
    | groupF d ts s => simp [treeMode] at ht
    | identF sym raw s => simp [treeMode] at ht
    | literalF r s => simp [treeMode] at ht
    | identC i => simp only [debugTreeW, debugSpanFieldW]
    | _ => simp only [debugTreeW]
  have hlist : ∀ ts : List Tree, (∀ t ∈ ts, treeMode t = true) →
      debugTreesW false alternate (ts.map eraseTreeW) = debugTreesW true alternate ts := by
    intro ts hts
    induction ts with
    | nil => rfl
    | cons t ts ih =>
      simp only [List.map_cons, debugTreesW, htree t (hts t (.head _)), ih (fun u hu => hts u (.tail _ hu))]
  cases v with
  | stream x =>
    cases x with
    | compiler x => rfl
    | fallback ts => simp [HidesSpans, streamMode] at h
  | tree t => exact congrArg Out.ok (htree t h)
  | span a =>
    cases a with
    | compiler a => rfl
    | fallback a => simp [HidesSpans, spanMode] at h
  | iterC ts =>
    show (ofCompilerTokens ts >>= fun us => Out.ok (debugStreamW false alternate us)) =
      (ofCompilerTokens ts >>= fun us => Out.ok (debugStreamW true alternate us))
    refine bind_congr fun us hus => ?_
    have : ∀ (ts : List CTree) us, ofCompilerTokens ts = .ok us → ∀ t ∈ us, treeMode t = true := by
      intro ts
      induction ts with
      | nil =>
        intro us h t ht
        simp only [ofCompilerTokens, Out.ok.injEq] at h
        subst h
        cases ht
      | cons c ts ih =>
        intro us h t ht
        simp only [ofCompilerTokens, bind_ok, Out.ok.injEq] at h
        obtain ⟨a, ha, b, hb, rfl⟩ := h
        cases ht with
        | tail _ ht => exact ih b hb t ht
        | head =>
          cases c with
          | punct ch sp s =>
            simp only [ofCompilerToken] at ha
            split at ha
            · simp only [Out.ok.injEq] at ha; subst ha; rfl
            · cases ha
          | _ => simp only [ofCompilerToken, Out.ok.injEq] at ha; subst ha; rfl
    have hm := this ts us hus
    have e := hlist us hm
    have : us.map eraseTreeW = us :=
      (List.map_congr_left fun t ht => eraseTreeW_of_mode (hm t ht)).trans (List.map_id us)
    rw [this] at e
    unfold debugStreamW
    rw [e]
  | iterF ts =>
    show Out.ok (debugStreamW false alternate (eraseTreesW ts)) = Out.ok (debugStreamW true alternate ts)
    rw [eraseTreesW_map]
    unfold debugStreamW
    rw [hlist ts h]
  | error e =>
    cases e with
    | compiler e => rfl
    | fallback e => exact h.elim
    | compilerPanic => exact h.elim
  | delim d =>
    cases d with
    | compiler a b c => rfl
    | fallback a => simp [HidesSpans, delimMode] at h
  | _ => rfl

theorem ofSpan_erase (x : Option WSpan) :
    eraseValue (Value.ofSpan x : Value σ) = Value.ofSpan (x.map eraseSpanW) := by cases x <;> rfl

theorem ofText_erase (x : Option (List Char)) : eraseValue (Value.ofText x : Value σ) = Value.ofText x := by
  cases x <;> rfl

variable [LawfulUnicode]

theorem fromStr_erase {sm : SourceMap} {texts : List (List Char)} (h : History sm texts) {src : List Char}
    (hr : Room texts src) (inside : Bool) :
    Wrap.NoSpan.fromStr (σ := σ) inside src =
      mapOut (Sum.map eraseError eraseStreamW) (WStream.fromStr (σ := σ) inside sm src).result := by
  have hs := C69_same h hr
  rcases C01_parse_total h hr with ⟨ts, ht⟩ | ⟨e, he⟩
  · have hn := hs.1 ts ht
    cases inside
    · simp only [Wrap.NoSpan.fromStr, WStream.fromStr, hn, ht, Bool.false_eq_true, if_false, mapOut_ok,
        ← ofFallbacks_erase]
      rfl
    · simp only [Wrap.NoSpan.fromStr, WStream.fromStr, hn, ht, if_true, fromStr2]
      cases Compiler.parseStream src <;> rfl
  · have hn := hs.2 e he
    cases inside
    · simp only [Wrap.NoSpan.fromStr, WStream.fromStr, hn, he, Bool.false_eq_true, if_false, mapOut_ok]
      rfl
    · simp only [Wrap.NoSpan.fromStr, WStream.fromStr, hn, he, if_true, fromStr2]
      rfl

theorem literalFromStr_erase {sm : SourceMap} {texts : List (List Char)} (h : History sm texts) {src : List Char}
    (hr : Room texts src) (inside : Bool) :
    Wrap.NoSpan.literalFromStr inside src =
      mapOut (Sum.map eraseError eraseTreeW) (Wrap.literalFromStr inside sm src).result := by
  obtain ⟨-, e, -, -, hlt⟩ := h.fromStr hr
  rw [literalFromStrAt_eq hlt] at e
  have hn := NoSpan.literalFromStr_eq src
  by_cases ha : P.litAccepts src
  · rw [if_pos ha] at e hn
    cases inside
    · simp only [Wrap.NoSpan.literalFromStr, Wrap.literalFromStr, hn, e, Bool.false_eq_true, if_false, mapOut_ok]
      rfl
    · simp only [Wrap.NoSpan.literalFromStr, Wrap.literalFromStr, hn, e, if_true, fromStr2]
      cases Compiler.parseLiteral src <;> rfl
  · rw [if_neg ha] at e hn
    cases inside
    · simp only [Wrap.NoSpan.literalFromStr, Wrap.literalFromStr, hn, e, Bool.false_eq_true, if_false, mapOut_ok]
      rfl
    · simp only [Wrap.NoSpan.literalFromStr, Wrap.literalFromStr, hn, e, if_true, fromStr2]
      rfl

theorem step_erase {s : State σ} {texts : List (List Char)} (h : History s.sm texts) {op : Op}
    (hf : StepFits texts op) (hb : Blind s op) (inside : Bool) :
    NoSpan.step inside (eraseState s) op = mapOut eraseState (Wrap.step inside s op) := by
  cases op with
  | fromStr src =>
    simp only [NoSpan.step, Wrap.step, fromStr_erase h hf, bind_mapOut, mapOut_bind]
    congr 1
    funext x
    cases x <;> simp [eraseState_push, eraseState_sm, Sum.map, eraseValue]
  | literalFromStr src =>
    simp only [NoSpan.step, Wrap.step, literalFromStr_erase h hf, bind_mapOut, mapOut_bind]
    congr 1
    funext x
    cases x <;> simp [eraseState_push, eraseState_sm, Sum.map, eraseValue]
  | byteRange i => exact hb.elim
  | start i => exact hb.elim
  | end_ i => exact hb.elim
  | file i => exact hb.elim
  | localFile i => exact hb.elim
  | invalidate => exact hb.elim
  | defSite => exact hb.elim
  | spanEq i j => exact hb.elim
  | value k i => exact hb.elim
  | join i j =>
    simp only [NoSpan.step, Wrap.step, eraseState_span, bind_mapOut, mapOut_bind]
    refine bind_congr fun a ha => bind_congr fun b hb' => ?_
    rcases hb a b (span_ok.mp ha) (span_ok.mp hb') with h1 | h1
    · cases a with
      | fallback a => simp [spanMode] at h1
      | compiler a =>
        cases b with
        | fallback b => simp [NoSpan.join, WSpan.join, eraseSpanW, eraseState_push, out_bind_ok, ofSpan_erase]
        | compiler b =>
          simp only [NoSpan.join, WSpan.join, eraseSpanW, eraseState_push, out_bind_ok, ofSpan_erase, mapOut_ok]
          split
          · cases Compiler.join a b <;> rfl
          · rfl
    · cases b with
      | fallback a => simp [spanMode] at h1
      | compiler b =>
        cases a with
        | fallback b => simp [NoSpan.join, WSpan.join, eraseSpanW, eraseState_push, out_bind_ok, ofSpan_erase]
        | compiler a =>
          simp only [NoSpan.join, WSpan.join, eraseSpanW, eraseState_push, out_bind_ok, ofSpan_erase, mapOut_ok]
          split
          · cases Compiler.join a b <;> rfl
          · rfl
  | sourceText i =>
    simp only [NoSpan.step, Wrap.step, eraseState_span, bind_mapOut, mapOut_bind]
    refine bind_congr fun a ha => ?_
    have := hb a (span_ok.mp ha)
    cases a with
    | fallback a => simp [spanMode] at this
    | compiler a =>
      simp only [NoSpan.sourceText, WSpan.sourceText, eraseSpanW, eraseState_push, eraseState_sm, out_bind_ok,
        ofText_erase, mapOut_ok]
  | subspan i x y =>
    simp only [NoSpan.step, Wrap.step, eraseState_tree, bind_mapOut, mapOut_bind]
    refine bind_congr fun t ht => ?_
    have := hb t (tree_ok.mp ht)
    rw [eraseTreeW_of_mode this]
    cases t with
    | literalF r s => simp [treeMode] at this
    | literalC l =>
      simp only [NoSpan.subspan, Tree.subspan, eraseState_push, out_bind_ok, ofSpan_erase, mapOut_ok]
      split
      · cases Compiler.literalSubspan l x y <;> rfl
      · rfl
    | _ => rfl
  | debugIdent alternate i =>
    simp only [NoSpan.step, Wrap.step, eraseState_tree, bind_mapOut, mapOut_bind]
    refine bind_congr fun t ht => ?_
    have := hb t (tree_ok.mp ht)
    rw [eraseTreeW_of_mode this]
    cases t with
    | identC i => simp only [Tree.identDebug, Out.typed, out_bind_ok, mapOut_ok, eraseState_push, eraseValue]
    | identF sym raw s => simp [treeMode] at this
    | _ => rfl
  | debug alternate i =>
    simp only [NoSpan.step, Wrap.step, eraseState_get, typed_map, bind_mapOut, mapOut_bind]
    refine bind_congr fun v hv => ?_
    have hv' : s.vars[i]? = some v := by
      cases hx : s.vars[i]? with
      | none => rw [hx] at hv; cases hv
      | some w => rw [hx] at hv; simp only [Out.typed, Out.ok.injEq] at hv; rw [hv]
    rw [debug_hidden (hb v hv')]
    simp only [mapOut_ok, eraseState_push]
    rfl
  | next i =>
    simp only [NoSpan.step, Wrap.step, eraseState_get]
    cases hv : s.vars[i]? with
    | none => rfl
    | some v =>
      cases v with
      | iterC ts =>
        cases ts with
        | nil => simp [eraseState_push, eraseValue]
        | cons t ts =>
          simp only [Option.map_some, eraseValue, mapOut_bind, mapOut_ok, eraseState_push, eraseState_set]
          conv => lhs; rw [← ofCompilerToken_erase, bind_mapOut]
      | iterF ts =>
        cases ts <;> simp [eraseState_push, eraseState_set, eraseValue]
      | _ => rfl
  | errorSpan i =>
    simp only [NoSpan.step, Wrap.step, eraseState_get]
    cases hv : s.vars[i]? with
    | none => rfl
    | some v => cases v <;> simp [eraseState_push, eraseValue, errorSpan_erase]
  | sizeHint i =>
    simp only [NoSpan.step, Wrap.step, eraseState_get]
    cases hv : s.vars[i]? with
    | none => rfl
    | some v => cases v <;> simp [eraseState_push, eraseValue]
  | errorText i =>
    simp only [NoSpan.step, Wrap.step, eraseState_get]
    cases hv : s.vars[i]? with
    | none => rfl
    | some v => cases v <;> simp [eraseState_push, eraseValue, errorText_erase]
  | clone i =>
    simp only [NoSpan.step, Wrap.step, eraseState_get, typed_map, bind_mapOut, mapOut_bind, mapOut_ok,
      eraseState_push]
  | punctNew ch sp =>
    simp only [NoSpan.step, Wrap.step, mapOut_bind, mapOut_ok, eraseState_push, eraseValue]
    conv => lhs; rw [← punctNew_erase, bind_mapOut]
  | literalUnchecked r =>
    simp only [NoSpan.step, Wrap.step, mapOut_bind, mapOut_ok, eraseState_push, eraseValue]
    conv => lhs; rw [← literalUnchecked_erase, bind_mapOut]
  | byteCharacter b =>
    simp only [NoSpan.step, Wrap.step, mapOut_bind, mapOut_ok, eraseState_push, eraseValue]
    conv => lhs; rw [← byteCharacterW_erase, bind_mapOut]
  | cString bs =>
    simp only [NoSpan.step, Wrap.step, mapOut_bind, mapOut_ok, eraseState_push, eraseValue]
    conv => lhs; rw [← cStringW_erase, bind_mapOut]
  | fromCompiler ts =>
    simp only [NoSpan.step, Wrap.step, mapOut_ok, eraseState_push, eraseValue, eraseStreamW]
  | spanFromCompiler a =>
    simp only [NoSpan.step, Wrap.step, mapOut_ok, eraseState_push, eraseValue, eraseSpanW]
  | _ =>
    simp only [NoSpan.step, Wrap.step, eraseState_stream, eraseState_tree, eraseState_span, eraseState_delim,
      eraseState_trees, eraseState_streams, bind_mapOut, mapOut_bind, mapOut_ok, eraseState_push, eraseState_set,
      eraseValue, new_erase, isEmpty_erase, wdisplay_erase, intoCompiler_erase, fromTree_erase, collectTrees_erase,
      collectStreams_erase, extendTrees_erase, extendStreams_erase, intoIter_erase, groupNew_erase, stream_erase,
      typed_map, span_erase, resolvedAt_erase, locatedAt_erase, unwrap_erase, setSpan_erase, identEq_erase,
      identEqStr_erase, Tree.identCmp, Tree.identHash, identText_erase, delimiter_erase, asChar_erase,
      spacing_erase, delimSpan_erase, delimJoin_erase, delimOpen_erase, delimClose_erase, spanOpen_erase,
      spanClose_erase, callSite_erase, mixedSite_erase, literalNewW_erase, identNewW_erase, identNewRawW_erase,
      displayTreeW_erase]

/-- A call that returns leaves a source map with the texts that are parsed so far. -/
theorem step_history {s s' : State σ} {texts : List (List Char)} (h : History s.sm texts) {op : Op}
    (hf : StepFits texts op) {inside : Bool} (hs : Wrap.step inside s op = .ok s') :
    History s'.sm (textsAfter texts op) := by
  cases op with
  | fromStr src =>
    obtain ⟨-, -, h1, -, -⟩ := h.fromStr hf
    simp only [Wrap.step] at hs
    obtain ⟨x, -, hx⟩ := bind_ok.mp hs
    have e : (WStream.fromStr (σ := σ) inside s.sm src).sm = (TokenStream.fromStr s.sm src).1 := by
      cases inside <;> rfl
    cases x <;> (simp only [Out.ok.injEq] at hx; subst hx; show History (WStream.fromStr (σ := σ) _ _ _).sm _; rw [e]; exact h1)
  | literalFromStr src =>
    obtain ⟨-, -, -, h1, -⟩ := h.fromStr hf
    simp only [Wrap.step] at hs
    obtain ⟨x, -, hx⟩ := bind_ok.mp hs
    have e : (Wrap.literalFromStr inside s.sm src).sm = (Literal.fromStr s.sm src).1 := by
      cases inside <;> rfl
    cases x <;> (simp only [Out.ok.injEq] at hx; subst hx; show History (Wrap.literalFromStr _ _ _).sm _; rw [e]; exact h1)
  | invalidate =>
    cases inside with
    | true => simp [Wrap.step] at hs
    | false => simp only [Wrap.step, Bool.false_eq_true, if_false, Out.ok.injEq] at hs; subst hs; exact .invalidate h
  | byteRange i =>
    simp only [Wrap.step, bind_ok, Out.ok.injEq] at hs
    obtain ⟨a, -, r, hr, rfl⟩ := hs
    cases a with
    | compiler a => simp only [WSpan.byteRange, Out.ok.injEq] at hr; subst hr; exact h
    | fallback a =>
      simp only [WSpan.byteRange] at hr
      cases hq : a.byteRange (ε := Unit) s.sm with
      | ok r' => rw [hq] at hr; simp only [Out.ofRes, Out.ok.injEq] at hr; subst hr; exact .byteRange a h hq
      | _ => rw [hq] at hr; simp [Out.ofRes] at hr
  | sourceText i =>
    simp only [Wrap.step, bind_ok, Out.ok.injEq] at hs
    obtain ⟨a, -, r, hr, rfl⟩ := hs
    cases a with
    | compiler a => simp only [WSpan.sourceText, Out.ok.injEq] at hr; subst hr; exact h
    | fallback a =>
      simp only [WSpan.sourceText] at hr
      cases hq : a.sourceText (ε := Unit) s.sm with
      | ok r' => rw [hq] at hr; simp only [Out.ofRes, Out.ok.injEq] at hr; subst hr; exact .sourceText a h hq
      | _ => rw [hq] at hr; simp [Out.ofRes] at hr
  | next i =>
    simp only [Wrap.step] at hs
    split at hs
    · simp only [Out.ok.injEq] at hs; subst hs; exact h
    · simp only [bind_ok, Out.ok.injEq] at hs
      obtain ⟨a, -, rfl⟩ := hs
      exact h
    · simp only [Out.ok.injEq] at hs; subst hs; exact h
    · simp only [Out.ok.injEq] at hs; subst hs; exact h
    · cases hs
  | errorSpan i =>
    simp only [Wrap.step] at hs
    split at hs
    · simp only [Out.ok.injEq] at hs; subst hs; exact h
    · cases hs
  | errorText i =>
    simp only [Wrap.step] at hs
    split at hs
    · simp only [Out.ok.injEq] at hs; subst hs; exact h
    · cases hs
  | sizeHint i =>
    simp only [Wrap.step] at hs
    split at hs
    · simp only [Out.ok.injEq] at hs; subst hs; exact h
    · simp only [Out.ok.injEq] at hs; subst hs; exact h
    · cases hs
  | _ =>
    simp only [Wrap.step, bind_ok, Out.ok.injEq] at hs
    first
      | (subst hs; exact h)
      | (obtain ⟨_, _, rfl⟩ := hs; exact h)
      | (obtain ⟨_, _, _, _, rfl⟩ := hs; exact h)
      | (obtain ⟨_, _, _, _, _, _, rfl⟩ := hs; exact h)

/-- **C93.** A program that does not ask for positions of the fallback does the same with and without
`span_locations`, in every mode and changing modes, whatever the compiler does: it returns, panics and
mixes modes alike, and the variables are equal except for the positions of the fallback. With
`span_locations` there have to be positions for the texts that it parses. -/
theorem C93_additive {s : State σ} {texts : List (List Char)} (h : History s.sm texts) {ops : List (Bool × Op)}
    (hf : Fits texts ops) (hb : BlindRun s ops) :
    NoSpan.run (eraseState s) ops = mapOut eraseState (Wrap.run s ops) := by
  induction ops generalizing s texts with
  | nil => rfl
  | cons o ops ih =>
    obtain ⟨inside, op⟩ := o
    simp only [NoSpan.run, Wrap.run, step_erase h hf.1 hb.1, bind_mapOut, mapOut_bind]
    exact bind_congr fun s' hs => ih (step_history h hf.1 hs) hf.2 (hb.2 s' hs)

/-! ## Without positions, nothing depends on positions -/

omit [Rep σ] [LawfulUnicode] in
mutual
theorem debugTreeW_erase (alternate : Bool) (t : Tree) :
    debugTreeW false alternate (eraseTreeW t) = debugTreeW false alternate t := by
  cases t with
  | groupF d ts s =>
    rw [eraseTreeW, debugTreeW, debugTreeW, debugTreesW_erase alternate ts]
    rfl
  | identF sym raw s => rfl
  | punct ch sp s => cases s <;> rfl
  | literalF r s => rfl
  | _ => rfl
theorem debugTreesW_erase (alternate : Bool) (ts : List Tree) :
    debugTreesW false alternate (eraseTreesW ts) = debugTreesW false alternate ts := by
  cases ts with
  | nil => rfl
  | cons t ts => simp only [eraseTreesW, debugTreesW, debugTreeW_erase alternate t, debugTreesW_erase alternate ts]
end

omit [LawfulUnicode] in
theorem debug_erase (alternate : Bool) (v : Value σ) :
    (eraseValue v).debug false alternate = v.debug false alternate := by
  cases v with
  | stream x =>
    cases x with
    | compiler x => rfl
    | fallback ts =>
      show Out.ok (debugStreamW false alternate (eraseTreesW ts)) = Out.ok (debugStreamW false alternate ts)
      unfold debugStreamW
      rw [debugTreesW_erase]
  | tree t => exact congrArg Out.ok (debugTreeW_erase alternate t)
  | span a => cases a <;> rfl
  | iterF ts =>
    show Out.ok (debugStreamW false alternate (eraseTreesW ts)) = Out.ok (debugStreamW false alternate ts)
    unfold debugStreamW
    rw [debugTreesW_erase]
  | error e => cases e <;> rfl
  | delim d => cases d <;> rfl
  | _ => rfl

omit [Rep σ] [UnicodeTables] [LawfulUnicode] in
theorem eraseSpanW_idem (a : WSpan) : eraseSpanW (eraseSpanW a) = eraseSpanW a := by cases a <;> rfl

omit [Compiler] [LawfulUnicode] [Rep σ] in
theorem erase_idem (ts : List TokenTree) : erase (erase ts) = erase ts := by
  unfold erase; exact mapSpan_mapSpan _ _ _

theorem noSpan_fromStr_erased (inside : Bool) (src : List Char) :
    mapOut (Sum.map eraseError eraseStreamW) (Wrap.NoSpan.fromStr (σ := σ) inside src) =
      Wrap.NoSpan.fromStr inside src := by
  cases inside with
  | true =>
    rcases C69_total src with ⟨ts, h⟩ | h
    · simp only [Wrap.NoSpan.fromStr, h, if_true, fromStr2]
      cases Compiler.parseStream src <;> rfl
    · simp only [Wrap.NoSpan.fromStr, h, if_true, fromStr2]
      rfl
  | false =>
    rcases C69_total src with ⟨ts, h⟩ | h
    · simp only [Wrap.NoSpan.fromStr, h, Bool.false_eq_true, if_false, mapOut_ok]
      obtain ⟨ts', -, rfl⟩ := C69_grammar.mp h
      show Out.ok (Sum.inr (WStream.fallback (eraseTreesW (Tree.ofFallbacks (erase ts'))))) = _
      rw [ofFallbacks_erase, erase_idem]
    · simp only [Wrap.NoSpan.fromStr, h, Bool.false_eq_true, if_false, mapOut_ok]
      rfl

omit [Rep σ] in
theorem noSpan_literalFromStr_erased (inside : Bool) (src : List Char) :
    mapOut (Sum.map eraseError eraseTreeW) (Wrap.NoSpan.literalFromStr inside src) =
      Wrap.NoSpan.literalFromStr inside src := by
  have h := NoSpan.literalFromStr_eq src
  by_cases ha : P.litAccepts src
  · rw [if_pos ha] at h
    cases inside
    · simp only [Wrap.NoSpan.literalFromStr, h, Bool.false_eq_true, if_false, mapOut_ok]
      rfl
    · simp only [Wrap.NoSpan.literalFromStr, h, if_true, fromStr2]
      cases Compiler.parseLiteral src <;> rfl
  · rw [if_neg ha] at h
    cases inside
    · simp only [Wrap.NoSpan.literalFromStr, h, Bool.false_eq_true, if_false, mapOut_ok]
      rfl
    · simp only [Wrap.NoSpan.literalFromStr, h, if_true, fromStr2]
      rfl

theorem noSpan_step_erase (s : State σ) (op : Op) (inside : Bool) :
    NoSpan.step inside (eraseState s) op = mapOut eraseState (NoSpan.step inside s op) := by
  cases op with
  | fromStr src =>
    simp only [NoSpan.step, mapOut_bind]
    conv => lhs; rw [← noSpan_fromStr_erased, bind_mapOut]
    congr 1
    funext x
    cases x <;> simp [eraseState_push, Sum.map, eraseValue]
  | literalFromStr src =>
    simp only [NoSpan.step, mapOut_bind]
    conv => lhs; rw [← noSpan_literalFromStr_erased, bind_mapOut]
    congr 1
    funext x
    cases x <;> simp [eraseState_push, Sum.map, eraseValue]
  | byteRange i => rfl
  | start i => rfl
  | end_ i => rfl
  | file i => rfl
  | localFile i => rfl
  | invalidate => rfl
  | defSite => rfl
  | spanEq i j => rfl
  | value k i => rfl
  | join i j =>
    simp only [NoSpan.step, eraseState_span, bind_mapOut, mapOut_bind]
    refine bind_congr fun a _ => bind_congr fun b _ => ?_
    simp only [mapOut_ok, eraseState_push, ofSpan_erase]
    cases a <;> cases b <;> simp only [NoSpan.join, eraseSpanW] <;> try rfl
    split
    · cases Compiler.join _ _ <;> rfl
    · rfl
  | sourceText i =>
    simp only [NoSpan.step, eraseState_span, bind_mapOut, mapOut_bind]
    refine bind_congr fun a _ => ?_
    simp only [mapOut_ok, eraseState_push, ofText_erase]
    cases a <;> rfl
  | subspan i x y =>
    simp only [NoSpan.step, eraseState_tree, bind_mapOut, mapOut_bind]
    refine bind_congr fun t _ => ?_
    simp only [mapOut_ok, eraseState_push, ofSpan_erase]
    cases t with
    | literalC l =>
      simp only [NoSpan.subspan, eraseTreeW, out_bind_ok]
      split
      · cases Compiler.literalSubspan l x y <;> rfl
      · rfl
    | _ => rfl
  | debugIdent alternate i =>
    simp only [NoSpan.step, eraseState_tree, bind_mapOut, mapOut_bind]
    refine bind_congr fun t _ => ?_
    simp only [mapOut_ok, eraseState_push]
    cases t <;> rfl
  | debug alternate i =>
    simp only [NoSpan.step, eraseState_get, typed_map, bind_mapOut, mapOut_bind, debug_erase]
    refine bind_congr fun v _ => ?_
    simp only [mapOut_ok, eraseState_push]
    rfl
  | spanOpen i =>
    simp only [NoSpan.step, eraseState_tree, bind_mapOut, mapOut_bind]
    refine bind_congr fun t _ => ?_
    cases t <;> simp [NoSpan.spanOpen, eraseTreeW, Out.typed, out_bind_ok, eraseState_push, eraseValue, eraseSpanW] <;> rfl
  | spanClose i =>
    simp only [NoSpan.step, eraseState_tree, bind_mapOut, mapOut_bind]
    refine bind_congr fun t _ => ?_
    cases t <;> simp [NoSpan.spanClose, eraseTreeW, Out.typed, out_bind_ok, eraseState_push, eraseValue, eraseSpanW] <;> rfl
  | delimOpen i =>
    simp only [NoSpan.step, eraseState_delim, bind_mapOut, mapOut_bind]
    refine bind_congr fun t _ => ?_
    simp only [mapOut_ok, eraseState_push]
    cases t <;> rfl
  | delimClose i =>
    simp only [NoSpan.step, eraseState_delim, bind_mapOut, mapOut_bind]
    refine bind_congr fun t _ => ?_
    simp only [mapOut_ok, eraseState_push]
    cases t <;> rfl
  | next i =>
    simp only [NoSpan.step, Wrap.step, eraseState_get]
    cases hv : s.vars[i]? with
    | none => rfl
    | some v =>
      cases v with
      | iterC ts =>
        cases ts with
        | nil => simp [eraseState_push, eraseValue]
        | cons t ts =>
          simp only [Option.map_some, eraseValue, mapOut_bind, mapOut_ok, eraseState_push, eraseState_set]
          conv => lhs; rw [← ofCompilerToken_erase, bind_mapOut]
      | iterF ts =>
        cases ts <;> simp [eraseState_push, eraseState_set, eraseValue]
      | _ => rfl
  | errorSpan i =>
    simp only [NoSpan.step, Wrap.step, eraseState_get]
    cases hv : s.vars[i]? with
    | none => rfl
    | some v => cases v <;> simp [eraseState_push, eraseValue, errorSpan_erase]
  | sizeHint i =>
    simp only [NoSpan.step, Wrap.step, eraseState_get]
    cases hv : s.vars[i]? with
    | none => rfl
    | some v => cases v <;> simp [eraseState_push, eraseValue]
  | errorText i =>
    simp only [NoSpan.step, Wrap.step, eraseState_get]
    cases hv : s.vars[i]? with
    | none => rfl
    | some v => cases v <;> simp [eraseState_push, eraseValue, errorText_erase]
  | clone i =>
    simp only [NoSpan.step, Wrap.step, eraseState_get, typed_map, bind_mapOut, mapOut_bind, mapOut_ok,
      eraseState_push]
  | punctNew ch sp =>
    simp only [NoSpan.step, Wrap.step, mapOut_bind, mapOut_ok, eraseState_push, eraseValue]
    conv => lhs; rw [← punctNew_erase, bind_mapOut]
  | literalUnchecked r =>
    simp only [NoSpan.step, Wrap.step, mapOut_bind, mapOut_ok, eraseState_push, eraseValue]
    conv => lhs; rw [← literalUnchecked_erase, bind_mapOut]
  | byteCharacter b =>
    simp only [NoSpan.step, Wrap.step, mapOut_bind, mapOut_ok, eraseState_push, eraseValue]
    conv => lhs; rw [← byteCharacterW_erase, bind_mapOut]
  | cString bs =>
    simp only [NoSpan.step, Wrap.step, mapOut_bind, mapOut_ok, eraseState_push, eraseValue]
    conv => lhs; rw [← cStringW_erase, bind_mapOut]
  | fromCompiler ts =>
    simp only [NoSpan.step, Wrap.step, mapOut_ok, eraseState_push, eraseValue, eraseStreamW]
  | spanFromCompiler a =>
    simp only [NoSpan.step, Wrap.step, mapOut_ok, eraseState_push, eraseValue, eraseSpanW]
  | _ =>
    simp only [NoSpan.step, Wrap.step, eraseState_stream, eraseState_tree, eraseState_span, eraseState_delim,
      eraseState_trees, eraseState_streams, bind_mapOut, mapOut_bind, mapOut_ok, eraseState_push, eraseState_set,
      eraseValue, new_erase, isEmpty_erase, wdisplay_erase, intoCompiler_erase, fromTree_erase, collectTrees_erase,
      collectStreams_erase, extendTrees_erase, extendStreams_erase, intoIter_erase, groupNew_erase, stream_erase,
      typed_map, span_erase, resolvedAt_erase, locatedAt_erase, unwrap_erase, setSpan_erase, identEq_erase,
      identEqStr_erase, Tree.identCmp, Tree.identHash, identText_erase, delimiter_erase, asChar_erase,
      spacing_erase, delimSpan_erase, delimJoin_erase, delimOpen_erase, delimClose_erase, spanOpen_erase,
      spanClose_erase, callSite_erase, mixedSite_erase, literalNewW_erase, identNewW_erase, identNewRawW_erase,
      displayTreeW_erase]

/-- **C93.** Without `span_locations`, nothing that a program does depends on positions: started with other
positions in its variables, it does the same, and ends with variables that only differ in positions. -/
theorem C93_no_positions (s : State σ) (ops : List (Bool × Op)) :
    NoSpan.run (eraseState s) ops = mapOut eraseState (NoSpan.run s ops) := by
  induction ops generalizing s with
  | nil => rfl
  | cons o ops ih =>
    obtain ⟨inside, op⟩ := o
    simp only [NoSpan.run, noSpan_step_erase, bind_mapOut, mapOut_bind, ih]

omit [LawfulUnicode] in
theorem blindRun_of {ops : List (Bool × Op)} (h : ∀ o ∈ ops, ∀ s : State σ, Blind s o.2) (s : State σ) :
    BlindRun s ops := by
  induction ops generalizing s with
  | nil => trivial
  | cons o ops ih => exact ⟨h o (.head _) s, fun s' _ => ih (fun o ho => h o (.tail _ ho)) s'⟩

end

end

/-! ## Concrete cases -/

section examples

attribute [local instance] sampleCompiler sampleTables sampleTables_lawful

/-- The last text that a program printed. -/
private def printed {σ : Type} : Out (State σ) → Option (List Char)
  | .ok s =>
    match s.vars.getLast? with
    | some (.text t) => some t
    | _ => none
  | _ => none

/-- Outside a macro a text is parsed, its first tree gets another span and is put into a group; inside a
macro an identifier of the compiler is appended. -/
private def program : List (Bool × Op) :=
  [(false, .fromStr "a :: -1".toList), (false, .intoIter 0), (false, .next 1), (false, .callSite),
    (false, .setSpan 2 3), (true, .callSite), (true, .identNew ['x'] 4), (false, .collectTrees [2, 5]),
    (false, .groupNew .brace 6), (false, .fromTree 7), (false, .collectStreams [8, 0]), (true, .display 9)]

/-- C93 -/
example : NoSpan.run (State.init : State Deferred) program = mapOut eraseState (Wrap.run State.init program) ∧
    printed (Wrap.run (State.init : State Deferred) program) = some "{ a x } a :: - 1".toList ∧
    printed (NoSpan.run (State.init : State Deferred) program) = some "{ a x } a :: - 1".toList :=
  ⟨C93_additive (s := State.init) .init (by simp [program, Fits, StepFits, textsAfter]; decide)
    (blindRun_of (by simp [program, Blind]) _), by decide +kernel, by decide +kernel⟩

/-- C93: calls that ask for positions. Spans of two texts have no join with `span_locations`, and have one
without; and `Debug` shows positions. -/
private def asks (op : Op) : List (Bool × Op) :=
  [(false, .literalFromStr ['1']), (false, .literalFromStr ['2']), (false, .span 0), (false, .span 1), (false, op)]

private def hasSpan {σ : Type} : Out (State σ) → Bool
  | .ok s =>
    match s.vars.getLast? with
    | some (.span _) => true
    | _ => false
  | _ => false

example : hasSpan (Wrap.run (State.init : State Deferred) (asks (.join 2 3))) = false ∧
    hasSpan (NoSpan.run (State.init : State Deferred) (asks (.join 2 3))) = true ∧
    printed (Wrap.run (State.init : State Deferred) (asks (.debug false 1))) =
      some "Literal { lit: 2, span: bytes(3..4) }".toList ∧
    printed (NoSpan.run (State.init : State Deferred) (asks (.debug false 1))) = some "Literal { lit: 2 }".toList ∧
    printed (NoSpan.run (State.init : State Deferred) (asks (.debug false 2))) = some "Span".toList := by
  refine ⟨?_, ?_, ?_, ?_, ?_⟩ <;> decide +kernel

end examples

end PM2.Props
