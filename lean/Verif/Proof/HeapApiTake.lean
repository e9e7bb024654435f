import Verif.Proof.HeapApiCall
/-!
# The API on the heap: calls that take something by value
-/

set_option linter.unusedSectionVars false

namespace PM2
open Heap Spec HeapApi Wrap Spec.Direct Props

section
variable [Compiler] [UnicodeTables] {s : HState} {f : FState}

theorem gives_dup {op : Wrap.Op} (h : ¬(extends_ op ++ takes op).Nodup) : gives true f op = .ill := by
  simp only [gives, if_true, fact]
  rw [if_neg h]

theorem vrun_dup {α : Type} {K : Kind α} {is : List Nat} {as : List α} {v : List Val} (h : At K v is as) (hn : ¬is.Nodup)
    (ops : List Heap.Op) : vrun v (is.map K.clone ++ (if true then is.map K.drop else []) ++ ops) = none := by
  rw [vrun_app, vrun_args h, if_pos rfl, if_neg hn]
  rfl

theorem dup_streams {is : List Nat} {us : List (List TokenTree)} {v : List Val} (h : At streamKind v is us) (hn : ¬is.Nodup)
    (ops : List Heap.Op) : vrun v (streamArgs true is ++ ops) = none := vrun_dup (K := streamKind) h hn ops

theorem dup_trees {is : List Nat} {us : List TokenTree} {v : List Val} (h : At treeKind v is us) (hn : ¬is.Nodup)
    (ops : List Heap.Op) : vrun v (treeArgs true is ++ ops) = none := vrun_dup (K := treeKind) h hn ops

theorem At.one {α : Type} {K : Kind α} {v : List Val} {i : Nat} {a : α} (h : v[i]? = some (K.emb a)) : At K v [i] [a] :=
  At.cons.mpr ⟨h, rfl⟩

theorem tokens_one {i : Nat} {x : FValue} (h : f.vars[i]? = some x) (hd : fval x ≠ .dead) : Tokens f.vars [i] := by
  intro j hj
  simp only [List.mem_singleton] at hj
  subst hj
  exact ⟨x, h, hd⟩

theorem args_streams {own : Bool} {is : List Nat} {us : List (List TokenTree)} {v : List Val} (h : At streamKind v is us)
    (hn : own = true → is.Nodup) (ops : List Heap.Op) :
    vrun v (streamArgs own is ++ ops) = vrun (kept own v is ++ us.map .stream) ops := by
  rw [vrun_app]
  have := vrun_args' (K := streamKind) h hn
  rw [show streamArgs own is = is.map streamKind.clone ++ if own then is.map streamKind.drop else [] from rfl, this]
  rfl

theorem args_trees {own : Bool} {is : List Nat} {us : List TokenTree} {v : List Val} (h : At treeKind v is us)
    (hn : own = true → is.Nodup) (ops : List Heap.Op) :
    vrun v (treeArgs own is ++ ops) = vrun (kept own v is ++ us.map .tree) ops := by
  rw [vrun_app]
  have := vrun_args' (K := treeKind) h hn
  rw [show treeArgs own is = is.map treeKind.clone ++ if own then is.map treeKind.drop else [] from rfl, this]
  rfl

theorem call_intoIter (own : Bool) (hR : RelA s f) (i : Nat) : AgreeA (gives own f (.intoIter i)) (call own s (.intoIter i)) := by
  have hn : s.vars.length = (f.vars.map fval).length := by simp [hR.len]
  rcases hR.readStream i with ⟨a, c, ts, h1, h2, h3, h4, h5⟩ | ⟨h1, h2⟩
  · rw [gives_ok (g := f.push (.iter ts)) (by simp only [fstep, h2, bind, Out.bind]) (by simp [extends_, takes])]
    simp only [call, h1, bind, Out.bind]
    refine result_take hR (a := 1) (b := 0) (w := .owned ts) (tokens_one h5 (by simp [fval])) ?_ (by simp) rfl
    rw [args_streams (At.one (by simp [h5]; rfl)) (by simp), hn]
    simp [vrun, vstep, List.set_append_right, takes]
  · rw [gives_ill (by simp only [fstep, h2, bind, Out.bind])]
    simp only [call, h1, bind, Out.bind]
    trivial

theorem call_groupNew (own : Bool) (hR : RelA s f) (d : Delimiter) (i : Nat) :
    AgreeA (gives own f (.groupNew d i)) (call own s (.groupNew d i)) := by
  have hn : s.vars.length = (f.vars.map fval).length := by simp [hR.len]
  rcases hR.readStream i with ⟨a, c, ts, h1, h2, h3, h4, h5⟩ | ⟨h1, h2⟩
  · rw [gives_ok (g := f.push (.tree (.group d ts Span.callSite))) (by simp only [fstep, h2, bind, Out.bind]; rfl)
      (by simp [extends_, takes])]
    simp only [call, h1, bind, Out.bind]
    refine result_take hR (a := 1) (b := 0) (w := .tree (.group d ts Span.callSite)) (tokens_one h5 (by simp [fval])) ?_ (by simp) rfl
    rw [args_streams (At.one (by simp [h5]; rfl)) (by simp), hn]
    simp [vrun, vstep, List.set_append_right, takes]
  · rw [gives_ill (by simp only [fstep, h2, bind, Out.bind])]
    simp only [call, h1, bind, Out.bind]
    trivial

theorem call_fromTree (own : Bool) (hR : RelA s f) (i : Nat) : AgreeA (gives own f (.fromTree i)) (call own s (.fromTree i)) := by
  have hn : s.vars.length = (f.vars.map fval).length := by simp [hR.len]
  rcases hR.readTree i with ⟨t, t', h1, h2, h3, h5⟩ | ⟨h1, h2⟩
  · rw [gives_ok (g := f.push (.stream (splitNeg t'))) (by simp only [fstep, h2, bind, Out.bind]) (by simp [extends_, takes])]
    simp only [call, h1, bind, Out.bind]
    refine result_take hR (a := 2) (b := 0) (w := .stream (splitNeg t')) (tokens_one h5 (by simp [fval])) ?_ (by simp) rfl
    rw [args_trees (At.one (by simp [h5]; rfl)) (by simp), hn]
    simp [vrun, vstep, List.set_append_right, takes]
  · rw [gives_ill (by simp only [fstep, h2, bind, Out.bind])]
    simp only [call, h1, bind, Out.bind]
    trivial

theorem call_intoCompiler (own : Bool) (hR : RelA s f) (i : Nat) :
    AgreeA (gives own f (.intoCompiler i)) (call own s (.intoCompiler i)) := by
  rcases hR.readStream i with ⟨a, c, ts, h1, h2, h3, h4, h5⟩ | ⟨h1, h2⟩
  · have hp : (displayH s.heap.length a).run _ textWriter [] s.heap = .ok ((display ts, true), s.heap) := by
      have e := displayH_as (o := {}) h3 h4 (nesting_cells h4) _ textWriter []
      have := C105_string ((C105_display {}).1 ts) []
      rw [e, show (textWriter : Writer (List Char)) = stringWriter from rfl, this, (C81_options {}).1 ts]
      rfl
    simp only [call, h1, bind, Out.bind, hp]
    cases hc : Compiler.parseStream (display ts) with
    | ok cs =>
      rw [gives_ok (g := f.push (.plain (.streamC cs))) (by simp only [fstep, h2, bind, Out.bind, hc]) (by simp [extends_, takes])]
      have hx : AgreeA (.ok (if own then f.kill [i] else f))
          (HState.change { s with heap := s.heap } (if own then [.dropStream i] else [])) := by
        cases own with
        | false =>
          have := change_ok hR (ops := []) (vals := f.vars.map fval) (a := 0) (by simp [vrun]) (by simp) (dead_self _)
            (borrowed_self _)
          rw [zip_self] at this
          exact this
        | true =>
          have := change_set hR (ops := [.dropStream i]) (a := 0) (w := .dead) h5 (by simp [fval])
            (by simp [vrun, vstep, h5, fval]) (by simp)
          exact this
      simp only
      generalize HState.change { s with heap := s.heap } (if own then [.dropStream i] else []) = y at hx
      cases y with
      | ok s' =>
        have hx' : RelA s' (if own then f.kill [i] else f) := hx
        have e : (if own then (f.push (.plain (.streamC cs))).kill [i] else f.push (.plain (.streamC cs))) =
            (if own then f.kill [i] else f).push (.plain (.streamC cs)) := by
          cases own with
          | false => rfl
          | true =>
            simp only [if_true]
            exact kill_push [i] f _ (tokens_one h5 (by simp [fval])).lt
        simp only [takes]
        rw [e]
        exact hx'.push rfl rfl
      | _ => exact hx.elim
    | err e =>
      have : fstep f (.intoCompiler i) = .panic := by simp only [fstep, h2, bind, Out.bind, hc]
      cases own <;> simp [gives, fact, extends_, takes, this, bind, Out.bind, AgreeA]
    | panic =>
      have : fstep f (.intoCompiler i) = .panic := by simp only [fstep, h2, bind, Out.bind, hc]
      cases own <;> simp [gives, fact, extends_, takes, this, bind, Out.bind, AgreeA]
  · rw [gives_ill (by simp only [fstep, h2, bind, Out.bind])]
    simp only [call, h1, bind, Out.bind]
    trivial

theorem call_collectTrees (own : Bool) (hR : RelA s f) (is : List Nat) :
    AgreeA (gives own f (.collectTrees is)) (call own s (.collectTrees is)) := by
  have hn : s.vars.length = (f.vars.map fval).length := by simp [hR.len]
  rcases hR.readTrees is with ⟨as, us, h1, h2, h3, h4⟩ | ⟨h1, h2⟩
  · simp only [call, h1, bind, Out.bind]
    by_cases hd : own = true ∧ ¬is.Nodup
    · obtain ⟨rfl, hd⟩ := hd
      rw [gives_dup (by simpa [extends_, takes] using hd), List.append_assoc,
        result_ill hR (dup_trees h3 hd _)]
      trivial
    · have hd' : own = true → is.Nodup := fun h => Classical.byContradiction fun h' => hd ⟨h, h'⟩
      rw [gives_ok (g := f.push (.stream (us.flatMap splitNeg))) (by simp only [fstep, h2, bind, Out.bind])
        (by simpa [extends_, takes] using hd')]
      refine result_take hR (a := is.length + 1) (b := 0) (w := .stream (us.flatMap splitNeg)) h4 ?_ (by simp) rfl
      have hlen := h3.len
      rw [List.append_assoc, args_trees h3 hd', vrun_app, hn]
      have e1 : vrun (kept own (f.vars.map fval) is ++ us.map .tree) [.builder, .build ((f.vars.map fval).length + is.length)] =
          some (kept own (f.vars.map fval) is ++ us.map .tree ++ [.dead, .stream []]) := by
        have := vrun_new (kept own (f.vars.map fval) is ++ us.map .tree)
        rw [List.length_append, kept_length, List.length_map (as := us), ← hlen] at this
        exact this
      rw [e1]
      have hat := At.range (K := treeKind) us (kept own (f.vars.map fval) is) [.dead, .stream []]
      rw [kept_length, ← hlen] at hat
      have e2 := vrun_extendTrees (i := (f.vars.map fval).length + is.length + 1) (ts := []) (us := us)
        (js := List.range' (f.vars.map fval).length is.length)
        (v := kept own (f.vars.map fval) is ++ us.map treeKind.emb ++ [.dead, .stream []])
        (by rw [List.getElem?_append_right (by simp [hlen])]
            simp [hlen, show ∀ a b : Nat, a + b + 1 - (a + b) = 1 by omega])
        List.nodup_range' (by simp [List.mem_range']; omega) hat
      have hk := killv_range (us.map treeKind.emb) (kept own (f.vars.map fval) is) [.dead, .stream []]
      rw [kept_length, List.length_map (as := us), ← hlen] at hk
      rw [hk] at e2
      refine e2.trans ?_
      rw [List.set_append_right _ _ (by simp)]
      simp [show ∀ a b : Nat, a + b + 1 - (a + b) = 1 by omega, List.replicate_succ', takes]
  · rw [gives_ill (by simp only [fstep, h2, bind, Out.bind])]
    simp only [call, h1, bind, Out.bind]
    trivial

theorem call_collectStreams (own : Bool) (hR : RelA s f) (is : List Nat) :
    AgreeA (gives own f (.collectStreams is)) (call own s (.collectStreams is)) := by
  have hn : s.vars.length = (f.vars.map fval).length := by simp [hR.len]
  cases is with
  | nil =>
    have := call_plain own hR (.collectStreams []) rfl rfl
    cases own with
    | false => exact this
    | true =>
      have e : gives true f (.collectStreams []) = fstep f (.collectStreams []) := by
        simp [gives, fact, extends_, takes, fstep, FState.reads, bind, Out.bind, FState.kill]
      rw [e]
      exact this
  | cons i is =>
  rcases hR.readStreams (i :: is) with ⟨as, us, h1, h2, h3, h4⟩ | ⟨h1, h2⟩
  · simp only [call, h1, bind, Out.bind]
    by_cases hd : own = true ∧ ¬(i :: is).Nodup
    · obtain ⟨rfl, hd⟩ := hd
      rw [gives_dup (by simpa [extends_, takes] using hd),
        result_ill hR (dup_streams h3 hd _)]
      trivial
    · have hd' : own = true → (i :: is).Nodup := fun h => Classical.byContradiction fun h' => hd ⟨h, h'⟩
      rw [gives_ok (g := f.push (.stream us.flatten)) (by simp only [fstep, h2, bind, Out.bind])
        (by simpa [extends_, takes] using hd')]
      refine result_take hR (a := 0) (b := is.length + is.length) (w := .stream us.flatten) h4 ?_ (by simp) rfl
      have hlen := h3.len
      rw [args_streams h3 hd', hn]
      cases us with
      | nil => cases hlen
      | cons u us =>
        simp only [List.length_cons, Nat.add_right_cancel_iff] at hlen
        generalize hw : kept own (f.vars.map fval) (i :: is) = w
        have hwl : (f.vars.map fval).length = w.length := by rw [← hw, kept_length]
        rw [hwl]
        have hat := At.range (K := streamKind) us (w ++ [.stream u]) []
        rw [List.append_nil, List.length_append, ← hlen] at hat
        have e2 := vrun_extendStreams (i := w.length) (ts := u) (us := us)
          (js := List.range' (w.length + 1) is.length)
          (v := w ++ [.stream u] ++ us.map streamKind.emb)
          (by simp) List.nodup_range' (by simp [List.mem_range']; omega) hat
        have hk := killv_range (us.map streamKind.emb) (w ++ [.stream u]) []
        rw [List.append_nil, List.length_append, List.length_map (as := us), ← hlen, List.append_nil] at hk
        rw [show [Val.stream u].length = 1 from rfl] at hk
        rw [hk] at e2
        rw [show (w ++ [Val.stream u] ++ us.map streamKind.emb).length = w.length + 1 + is.length by simp [hlen]; omega] at e2
        have e3 : w ++ (u :: us).map .stream = w ++ [.stream u] ++ us.map streamKind.emb := by
          simp only [List.map_cons, List.append_assoc, List.cons_append, List.nil_append]; rfl
        rw [e3]
        refine e2.trans ?_
        simp [List.length_range', List.set_append_right, ← List.replicate_append_replicate, ← hw, takes]
  · rw [gives_ill (by simp only [fstep, h2, bind, Out.bind])]
    simp only [call, h1, bind, Out.bind]
    trivial

theorem kept_get {own : Bool} {v : List Val} {is : List Nat} {i : Nat} (h : own = true → i ∉ is) : (kept own v is)[i]? = v[i]? := by
  cases own with
  | false => rfl
  | true => exact killv_get is v (h rfl)

theorem call_extendTrees (own : Bool) (hR : RelA s f) (i : Nat) (js : List Nat) :
    AgreeA (gives own f (.extendTrees i js)) (call own s (.extendTrees i js)) := by
  have hn : s.vars.length = (f.vars.map fval).length := by simp [hR.len]
  rcases hR.readStream i with ⟨a, c, ts, g1, g2, g3, g4, g5⟩ | ⟨g1, g2⟩
  · rcases hR.readTrees js with ⟨as, us, h1, h2, h3, h4⟩ | ⟨h1, h2⟩
    · simp only [call, g1, h1, bind, Out.bind]
      have hg : (f.vars.map fval)[i]? = some (.stream ts) := by simp [g5, fval]
      have hi : i ∉ js := by
        intro hi
        have hm : (f.vars.map fval)[i]? ∈ js.map (fun i => (f.vars.map fval)[i]?) := List.mem_map_of_mem hi
        rw [h3, List.mem_map] at hm
        obtain ⟨b, -, hb⟩ := hm
        rw [hg] at hb
        cases hb
      by_cases hd : own = true ∧ ¬js.Nodup
      · obtain ⟨rfl, hd⟩ := hd
        rw [gives_dup (by simp [extends_, takes, hd]),
          change_ill hR (dup_trees h3 hd _)]
        trivial
      · have hd' : own = true → js.Nodup := fun h => Classical.byContradiction fun h' => hd ⟨h, h'⟩
        rw [gives_ok (g := f.set i (.stream (ts ++ us.flatMap splitNeg))) (by simp only [fstep, g2, h2, bind, Out.bind])
          (by simpa [extends_, takes, hi] using hd')]
        refine change_take hR (a := js.length) (w := .stream (ts ++ us.flatMap splitNeg)) h4 g5 (by simp [fval])
          (fun _ => hi) ?_ (by simp)
        have hlen := h3.len
        have hlt : i < (f.vars.map fval).length := (List.getElem?_eq_some_iff.mp hg).1
        rw [args_trees h3 hd', hn]
        generalize hw : kept own (f.vars.map fval) js = w
        have hwl : (f.vars.map fval).length = w.length := by rw [← hw, kept_length]
        have hwg : w[i]? = some (.stream ts) := by rw [← hw, kept_get (fun _ => hi), hg]
        rw [hwl] at hlt ⊢
        have hat := At.range (K := treeKind) us w []
        rw [List.append_nil, ← hlen] at hat
        have e2 := vrun_extendTrees (i := i) (ts := ts) (us := us) (js := List.range' w.length js.length)
          (v := w ++ us.map treeKind.emb) (by rw [List.getElem?_append_left hlt]; exact hwg)
          List.nodup_range' (by simp [List.mem_range']; omega) hat
        have hk := killv_range (us.map treeKind.emb) w []
        rw [List.append_nil, List.length_map (as := us), ← hlen, List.append_nil] at hk
        rw [hk, List.set_append_left _ _ hlt, ← hw] at e2
        rw [← hw]
        exact e2
    · rw [gives_ill (by simp only [fstep, g2, h2, bind, Out.bind])]
      simp only [call, g1, h1, bind, Out.bind]
      trivial
  · rw [gives_ill (by simp only [fstep, g2, bind, Out.bind])]
    simp only [call, g1, bind, Out.bind]
    trivial

theorem killv_mem : ∀ {is : List Nat} {v : List Val} {i : Nat}, i ∈ is → i < v.length → (killv v is)[i]? = some .dead
  | j :: is, v, i, h, hl => by
    simp only [killv]
    by_cases e : i ∈ is
    · exact killv_mem e (by simpa using hl)
    · rw [killv_get is _ e]
      cases h with
      | head => simp [hl]
      | tail _ h => exact absurd h e

theorem call_extendStreams (own : Bool) (hR : RelA s f) (i : Nat) (js : List Nat) :
    AgreeA (gives own f (.extendStreams i js)) (call own s (.extendStreams i js)) := by
  have hn : s.vars.length = (f.vars.map fval).length := by simp [hR.len]
  rcases hR.readStream i with ⟨a, c, ts, g1, g2, g3, g4, g5⟩ | ⟨g1, g2⟩
  · rcases hR.readStreams js with ⟨as, us, h1, h2, h3, h4⟩ | ⟨h1, h2⟩
    · simp only [call, g1, h1, bind, Out.bind]
      have hg : (f.vars.map fval)[i]? = some (.stream ts) := by simp [g5, fval]
      have hlt : i < (f.vars.map fval).length := (List.getElem?_eq_some_iff.mp hg).1
      by_cases hd : own = true ∧ ¬js.Nodup
      · obtain ⟨rfl, hd⟩ := hd
        rw [gives_dup (by simp [extends_, takes, hd]),
          change_ill hR (dup_streams h3 hd _)]
        trivial
      · have hd' : own = true → js.Nodup := fun h => Classical.byContradiction fun h' => hd ⟨h, h'⟩
        by_cases hi : own = true ∧ i ∈ js
        · obtain ⟨rfl, hi⟩ := hi
          rw [gives_dup (by simp [extends_, takes, hi]), change_ill hR]
          · trivial
          · rw [args_streams h3 hd']
            have hk : (killv (f.vars.map fval) js ++ us.map .stream)[i]? = some .dead := by
              rw [List.getElem?_append_left (by rw [killv_length]; exact hlt)]
              exact killv_mem hi hlt
            simp only [HeapApi.extendStreams, List.cons_append, vrun, vstep, kept, if_true, hk, Option.bind_none]
        have hi' : own = true → i ∉ js := fun h h' => hi ⟨h, h'⟩
        rw [gives_ok (g := f.set i (.stream (ts ++ us.flatten))) (by simp only [fstep, g2, h2, bind, Out.bind])
          (fun h => by simpa [extends_, takes] using ⟨hi' h, hd' h⟩)]
        refine change_take hR (a := js.length + js.length) (w := .stream (ts ++ us.flatten)) h4 g5 (by simp [fval]) hi' ?_
          (by simp)
        have hlen := h3.len
        rw [args_streams h3 hd', hn]
        generalize hw : kept own (f.vars.map fval) js = w
        have hwl : (f.vars.map fval).length = w.length := by rw [← hw, kept_length]
        have hwg : w[i]? = some (.stream ts) := by rw [← hw, kept_get hi', hg]
        rw [hwl] at hlt ⊢
        have hat := At.range (K := streamKind) us w []
        rw [List.append_nil, ← hlen] at hat
        have e2 := vrun_extendStreams (i := i) (ts := ts) (us := us) (js := List.range' w.length js.length)
          (v := w ++ us.map streamKind.emb) (by rw [List.getElem?_append_left hlt]; exact hwg)
          List.nodup_range' (by simp [List.mem_range']; omega) hat
        have hk := killv_range (us.map streamKind.emb) w []
        rw [List.append_nil, List.length_map (as := us), ← hlen, List.append_nil] at hk
        rw [hk, List.set_append_left _ _ hlt, show (w ++ us.map streamKind.emb).length = w.length + js.length by simp [hlen]] at e2
        refine e2.trans ?_
        simp [List.length_range', ← List.replicate_append_replicate, List.append_assoc, ← hw, takes]
    · rw [gives_ill (by simp only [fstep, g2, h2, bind, Out.bind])]
      simp only [call, g1, h1, bind, Out.bind]
      trivial
  · rw [gives_ill (by simp only [fstep, g2, bind, Out.bind])]
    simp only [call, g1, bind, Out.bind]
    trivial

theorem call_spec (own : Bool) (hR : RelA s f) (op : Wrap.Op) : AgreeA (gives own f op) (call own s op) := by
  have hp : takes op = [] → extends_ op = [] → AgreeA (gives own f op) (call own s op) := by
    intro h1 h2
    have := call_plain own hR op h1 h2
    cases own with
    | false => exact this
    | true =>
      have e : gives true f op = fstep f op := by
        simp only [gives, if_true, fact, h1, h2, List.append_nil, List.nodup_nil, FState.kill]
        cases fstep f op <;> rfl
      rw [e]
      exact this
  cases op with
  | intoIter i => exact call_intoIter own hR i
  | groupNew d i => exact call_groupNew own hR d i
  | fromTree i => exact call_fromTree own hR i
  | intoCompiler i => exact call_intoCompiler own hR i
  | collectTrees is => exact call_collectTrees own hR is
  | collectStreams is => exact call_collectStreams own hR is
  | extendTrees i js => exact call_extendTrees own hR i js
  | extendStreams i js => exact call_extendStreams own hR i js
  | _ => exact hp rfl rfl

theorem set_same {α : Type} {l : List α} {i : Nat} {x : α} (h : l[i]? = some x) : l.set i x = l := by
  refine List.ext_getElem? fun k => ?_
  by_cases e : i = k
  · subst e
    rw [h]
    simp [(List.getElem?_eq_some_iff.mp h).1]
  · rw [List.getElem?_set_ne e]

theorem act_spec (hR : RelA s f) (a : ApiAct) : AgreeA (fact f a) (apiAct s a) := by
  cases a with
  | call op => exact call_spec false hR op
  | give op => exact call_spec true hR op
  | drop i =>
    simp only [fact, apiAct, HState.read, FState.read]
    rcases hR.at i with ⟨h1, h2⟩ | ⟨v, w, h1, h2, h3, h4⟩
    · simp only [h1, h2, bind, Out.bind]
      trivial
    · simp only [h1, h2, bind, Out.bind, Out.typed]
      cases v <;> cases w <;> simp only [hvShape, fvShape, reduceCtorEq] at h3
      · exact change_set hR (a := 0) (w := .dead) h2 (by simp [fval]) (by simp [vrun, vstep, h2, fval]) (by simp)
      · exact change_set hR (a := 0) (w := .dead) h2 (by simp [fval]) (by simp [vrun, vstep, h2, fval]) (by simp)
      · exact change_set hR (a := 0) (w := .dead) h2 (by simp [fval]) (by simp [vrun, vstep, h2, fval]) (by simp)
      all_goals
        refine ⟨hR.sm, ?_, ?_⟩
        · have e1 : (s.vars.set i (.datum .none)).map HValue.root = s.vars.map HValue.root := by
            rw [List.map_set]
            exact set_same (by simp [h1, HValue.root])
          have e2 : (f.vars.set i (.plain .none)).map fval = f.vars.map fval := by
            rw [List.map_set]
            exact set_same (by simp [h2, fval])
          show Rel ⟨s.heap, (s.vars.set i (.datum .none)).map HValue.root⟩ ((f.vars.set i (.plain .none)).map fval)
          rw [e1, e2]
          exact hR.rel
        · show (s.vars.set i (.datum .none)).map hvShape = (f.vars.set i (.plain .none)).map fvShape
          rw [List.map_set, List.map_set, hR.shape]
          rfl

theorem acts_spec : ∀ (as : List ApiAct) {s : HState} {f : FState}, RelA s f → AgreeA (facts f as) (apiActs s as)
  | [], _, _, hR => hR
  | a :: as, s, f, hR => by
    have h := act_spec hR a
    simp only [facts, apiActs, bind]
    cases e1 : fact f a <;> cases e2 : apiAct s a <;> rw [e1, e2] at h <;> first
      | exact h.elim
      | exact acts_spec as h
      | trivial

theorem RelA.init : RelA HState.init ⟨SourceMap.init, []⟩ := ⟨rfl, Rel.init, rfl⟩

theorem RelA.represents (hR : RelA s f) : Represents s f := by
  refine ⟨hR.sm, hR.len, fun i v w h1 h2 => ?_⟩
  rcases hR.at i with ⟨g1, -⟩ | ⟨v', w', g1, g2, h3, h4⟩
  · rw [g1] at h1; cases h1
  · rw [h1] at g1; rw [h2] at g2
    cases g1; cases g2
    cases v <;> cases w <;> simp only [hvShape, fvShape, reduceCtorEq] at h3 <;> try cases h3
    · cases h4 with | stream a b => exact .stream a b
    · cases h4 with | tree a => exact .tree a
    · cases h4 with | owned a => exact .iter a
    · exact .span
    · exact .error
    · exact .delim
    · exact .datum

theorem AgreeA.agree {x : Out FState} {y : Out HState} (h : AgreeA x y) : Agree x y := by
  cases x <;> cases y <;> first | exact h.elim | trivial | exact RelA.represents h

end

end PM2
