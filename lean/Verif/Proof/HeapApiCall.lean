import Verif.Proof.HeapApiStep
import Verif.Props.Debug
/-!
# The API on the heap: the calls agree with the values
-/

set_option linter.unusedSectionVars false

namespace PM2
open Heap Spec HeapApi Wrap Spec.Direct Props

/-- The same outcome. -/
def AgreeA [CompilerTypes] : Out FState → Out HState → Prop
  | .ok f, .ok s => RelA s f
  | .mismatch, .mismatch => True
  | .panic, .panic => True
  | .diverge, .diverge => True
  | .ill, .ill => True
  | _, _ => False

section
variable [Compiler] {s : HState} {f : FState}

theorem RelA.push (hR : RelA s f) {v : HValue} {w : FValue} (hs : hvShape v = fvShape w) (hd : v.root = .dead) :
    RelA (s.push v) (f.push w) := by
  have hw := (root_dead hs).mp hd
  refine ⟨hR.sm, ?_, ?_⟩
  · show Rel ⟨s.heap, (s.vars ++ [v]).map HValue.root⟩ ((f.vars ++ [w]).map fval)
    refine Rel.sub (h := s.heap) (q := s.vars.map HValue.root) hR.rel ?_ ?_ (borrowed_self _)
    · rw [List.map_append, List.map_append]
      refine hR.rel.all.append ?_
      simp only [List.map_cons, List.map_nil, hd, hw]
      exact .cons .dead .nil
    · rw [List.map_append, varRefs_append]
      simp only [List.map_cons, List.map_nil, hd]
      exact List.append_nil _
  · show (s.vars ++ [v]).map hvShape = (f.vars ++ [w]).map fvShape
    simp only [List.map_append, List.map_cons, List.map_nil, hs, hR.shape]

theorem RelA.setSm (hR : RelA s f) (sm : SourceMap) : RelA { s with sm := sm } { f with sm := sm } :=
  ⟨rfl, hR.rel, hR.shape⟩

/-- Operations with a result. -/
theorem result_ok (hR : RelA s f) {ops : List Heap.Op} {k : Nat} {vals : List Val} {a b : Nat} {w : Val}
    (hv : vrun (f.vars.map fval) ops = some (vals ++ (List.replicate a .dead ++ w :: List.replicate b .dead)))
    (hl : f.vars.length = vals.length) (hd : ∀ p ∈ f.vars.zip vals, fval p.1 = .dead → p.2 = .dead)
    (hb : ∀ ts, Val.borrowed ts ∉ vals) (hw : ∀ ts, w ≠ .borrowed ts) (hk : k = s.vars.length + a) :
    AgreeA (.ok ⟨f.sm, List.zipWith withVal f.vars vals ++ [ofVal w]⟩) (s.result ops k) := by
  obtain ⟨st, h1, h2⟩ := run_spec ops hR.rel hv
  obtain ⟨r, h3, h4⟩ := hR.afterPush h2 hl hd hb hw
  subst hk
  simp only [HState.result, h1, ofHeap, bind, Out.bind, h3]
  exact h4

theorem result_new (hR : RelA s f) {ops : List Heap.Op} {k : Nat} {a b : Nat} {w : Val}
    (hv : vrun (f.vars.map fval) ops = some (f.vars.map fval ++ (List.replicate a .dead ++ w :: List.replicate b .dead)))
    (hw : ∀ ts, w ≠ .borrowed ts) (hk : k = s.vars.length + a) :
    AgreeA (.ok (f.push (ofVal w))) (s.result ops k) := by
  have := result_ok hR hv (by simp) (dead_self _) (borrowed_self _) hw hk
  rw [zip_self] at this
  exact this

/-- Operations with a result, after which the variables `is` are dead. -/
theorem result_kill (hR : RelA s f) {ops : List Heap.Op} {k : Nat} {a b : Nat} {w : Val} {is : List Nat} (ht : Tokens f.vars is)
    (hv : vrun (f.vars.map fval) ops =
      some (killv (f.vars.map fval) is ++ (List.replicate a .dead ++ w :: List.replicate b .dead)))
    (hw : ∀ ts, w ≠ .borrowed ts) (hk : k = s.vars.length + a) :
    AgreeA (.ok ((f.kill is).push (ofVal w))) (s.result ops k) := by
  have := result_ok hR hv (by simp) (dead_kill _ (dead_self _)) (borrowed_kill _ (borrowed_self _)) hw hk
  have e := zip_kill (sm := f.sm) is (f.vars.map fval) ht (by simp)
  rw [zip_self] at e
  rw [← e]
  exact this

theorem result_ill (hR : RelA s f) {ops : List Heap.Op} {k : Nat} (hv : vrun (f.vars.map fval) ops = none) :
    s.result ops k = .ill := by
  simp only [HState.result, run_none hR.rel hv, ofHeap, bind, Out.bind]

theorem change_ok (hR : RelA s f) {ops : List Heap.Op} {vals : List Val} {a : Nat}
    (hv : vrun (f.vars.map fval) ops = some (vals ++ List.replicate a .dead))
    (hl : f.vars.length = vals.length) (hd : ∀ p ∈ f.vars.zip vals, fval p.1 = .dead → p.2 = .dead)
    (hb : ∀ ts, Val.borrowed ts ∉ vals) :
    AgreeA (.ok ⟨f.sm, List.zipWith withVal f.vars vals⟩) (s.change ops) := by
  obtain ⟨st, h1, h2⟩ := run_spec ops hR.rel hv
  simp only [HState.change, h1, ofHeap, bind, Out.bind]
  exact hR.after h2 hl hd hb

theorem change_ill (hR : RelA s f) {ops : List Heap.Op} (hv : vrun (f.vars.map fval) ops = none) : s.change ops = .ill := by
  simp only [HState.change, run_none hR.rel hv, ofHeap, bind, Out.bind]

/-- The variable `i` is changed. -/
theorem change_set (hR : RelA s f) {ops : List Heap.Op} {a i : Nat} {w : Val} {x : FValue} (hx : f.vars[i]? = some x)
    (hxd : fval x ≠ .dead)
    (hv : vrun (f.vars.map fval) ops = some ((f.vars.map fval).set i w ++ List.replicate a .dead))
    (hw : ∀ ts, w ≠ .borrowed ts) : AgreeA (.ok (f.set i (ofVal w))) (s.change ops) := by
  have := change_ok hR hv (by simp) (dead_set (dead_self _) (fun y hy hd => by rw [hx] at hy; cases hy; exact absurd hd hxd))
    (borrowed_set (borrowed_self _) hw)
  rw [zip_set _ _ hx hxd (by simp), zip_self] at this
  exact this

/-- The variable `i` is changed and `is` are dead. -/
theorem change_kill (hR : RelA s f) {ops : List Heap.Op} {a i : Nat} {w : Val} {x : FValue} {is : List Nat}
    (ht : Tokens f.vars is) (hx : f.vars[i]? = some x) (hxd : fval x ≠ .dead)
    (hv : vrun (f.vars.map fval) ops = some ((killv (f.vars.map fval) is).set i w ++ List.replicate a .dead))
    (hw : ∀ ts, w ≠ .borrowed ts) : AgreeA (.ok ((f.kill is).set i (ofVal w))) (s.change ops) := by
  have := change_ok hR hv (by simp)
    (dead_set (dead_kill _ (dead_self _)) (fun y hy hd => by rw [hx] at hy; cases hy; exact absurd hd hxd))
    (borrowed_set (borrowed_kill _ (borrowed_self _)) hw)
  rw [zip_set _ _ hx hxd (by simp)] at this
  have e := zip_kill (sm := f.sm) is (f.vars.map fval) ht (by simp)
  rw [zip_self] at e
  rw [← e]
  exact this

/-! ### Printing -/

theorem print_ok {p : HPrinter} {q : Printer} {t : List Char} (hp : PrintsAs p q s.heap) (hq : Writes q t) :
    s.print p = .ok (s.push (.datum (.text t))) := by
  unfold HState.print
  rw [hp]
  have := C105_string hq []
  rw [show (textWriter : Writer (List Char)) = stringWriter from rfl, this]
  rfl

theorem displayTreeFmt_default (t : TokenTree) : displayTreeFmt {} t = displayTree t := by
  cases t with
  | group d ts sp => exact (C81_options {}).2.1 d ts sp
  | ident sym raw sp => rfl
  | punct c sp x => rfl
  | literal r x => rfl

theorem leaf_ok {v : List Val} {t : TokenTree} (h : ∀ d ts x, t ≠ .group d ts x) :
    vrun v [.leaf (leafOf t)] = some (v ++ [.tree t]) := by
  cases t with
  | group d ts x => exact absurd rfl (h d ts x)
  | _ => rfl

theorem result_leaf (hR : RelA s f) {t : TokenTree} (h : ∀ d ts x, t ≠ .group d ts x) :
    AgreeA (.ok (f.push (.tree t))) (s.result [.leaf (leafOf t)] s.vars.length) :=
  result_new hR (a := 0) (b := 0) (w := .tree t) (leaf_ok h) (by simp) rfl

end

section
variable [Compiler] [UnicodeTables] {s : HState} {f : FState}

theorem vrun_new (v : List Val) : vrun v [.builder, .build v.length] = some (v ++ [.dead, .stream []]) := by
  simp [vrun, vstep]

theorem call_fromStr (own : Bool) (hR : RelA s f) (src : List Char) :
    AgreeA (fstep f (.fromStr src)) (call own s (.fromStr src)) := by
  obtain ⟨h1, h2⟩ := parse_same hR.rel s.sm src
  simp only [call, fstep]
  rw [← hR.sm]
  rcases e1 : Heap.parse s.sm s.state src with ⟨sm', r⟩
  rcases e2 : TokenStream.fromStr s.sm src with ⟨sm2, r2⟩
  rw [e1, e2] at h1 h2
  simp only at h1 h2
  subst h1
  cases r <;> cases r2 <;> try exact h2.elim
  · rename_i st ts
    have hp : Rel st (f.vars.map fval ++ [.stream ts]) := h2.rel
    obtain ⟨r, h3, h4⟩ := (hR.setSm sm').afterPush (st := st) (vals := f.vars.map fval) (a := 0) (b := 0) (w := .stream ts)
      hp (by simp) (dead_self _) (borrowed_self _) (by simp)
    rw [zip_self] at h4
    simp only [Nat.add_zero] at h3
    simp only [h3]
    exact h4
  · rename_i e e'
    obtain ⟨sp, st⟩ := e
    obtain ⟨h3, h4⟩ := h2
    simp only at h3
    subst h3
    have hp : Rel st (f.vars.map fval ++ []) := by rw [List.append_nil]; exact h4.rel
    have := (hR.setSm sm').after (st := st) (vals := f.vars.map fval) (a := 0) hp (by simp) (dead_self _) (borrowed_self _)
    rw [zip_self] at this
    exact this.push rfl rfl
  · trivial
  · trivial

theorem call_isEmpty (own : Bool) (hR : RelA s f) (i : Nat) : AgreeA (fstep f (.isEmpty i)) (call own s (.isEmpty i)) := by
  rcases hR.readStream i with ⟨a, c, ts, h1, h2, h3, h4, -⟩ | ⟨h1, h2⟩
  · have : Heap.isEmpty s.heap a = .ok ts.isEmpty := by
      simp only [Heap.isEmpty, Heap.read, h3, bind, Res.bind, shows_length h4]
      cases ts <;> rfl
    simp only [call, fstep, h1, h2, bind, Out.bind, this, ofHeap]
    exact hR.push rfl rfl
  · simp only [call, fstep, h1, h2, bind, Out.bind]
    trivial

theorem call_print (own : Bool) (hR : RelA s f) (i : Nat) :
    AgreeA (fstep f (.display i)) (call own s (.display i)) ∧ AgreeA (fstep f (.treeText i)) (call own s (.treeText i)) := by
  constructor
  · rcases hR.readStream i with ⟨a, c, ts, h1, h2, h3, h4, -⟩ | ⟨h1, h2⟩
    · simp only [call, fstep, h1, h2, bind, Out.bind]
      rw [print_ok (displayH_as (o := {}) h3 h4 (nesting_cells h4)) ((C105_display {}).1 ts), (C81_options {}).1 ts]
      exact hR.push rfl rfl
    · simp only [call, fstep, h1, h2, bind, Out.bind]
      trivial
  · rcases hR.readTree i with ⟨t, t', h1, h2, h3, -⟩ | ⟨h1, h2⟩
    · simp only [call, fstep, h1, h2, bind, Out.bind]
      rw [print_ok (displayTreeH_as {} h3 (nesting_cells_tree h3)) ((C105_display {}).2.1 t'), displayTreeFmt_default]
      exact hR.push rfl rfl
    · simp only [call, fstep, h1, h2, bind, Out.bind]
      trivial

theorem RelA.counted (hR : RelA s f) : Counted s.heap := hR.rel.inv.pos

theorem call_debug (own : Bool) (hR : RelA s f) (alternate : Bool) (i : Nat) :
    AgreeA (fstep f (.debug alternate i)) (call own s (.debug alternate i)) := by
  simp only [call, fstep, HState.read, FState.read]
  rcases hR.at i with ⟨h1, h2⟩ | ⟨v, w, h1, h2, h3, h4⟩
  · simp only [h1, h2, bind, Out.bind]
    trivial
  · simp only [h1, h2, bind, Out.bind, Out.typed]
    cases v <;> cases w <;> simp only [hvShape, fvShape, reduceCtorEq] at h3
    · cases h4 with
      | stream g1 g2 =>
        simp only [FValue.debug]
        rw [print_ok (debugStreamH_as hR.counted g1 g2 (nesting_cells g2)) ((C105_debug true alternate).1 _)]
        exact hR.push rfl rfl
    · cases h4 with
      | tree g1 =>
        simp only [FValue.debug]
        rw [print_ok (debugTreeH_as hR.counted g1 (nesting_cells_tree g1)) ((C105_debug true alternate).2.1 _)]
        exact hR.push rfl rfl
    · cases h4 with
      | owned g1 =>
        simp only [FValue.debug]
        rw [print_ok (debugIterH_as hR.counted g1 (nesting_cells g1)) ((C105_debug true alternate).1 _)]
        exact hR.push rfl rfl
    · cases h3; exact hR.push rfl rfl
    · cases h3; exact hR.push rfl rfl
    · cases h3; exact hR.push rfl rfl
    · rename_i d p
      cases h3
      cases d <;> first | trivial | exact hR.push rfl rfl

theorem call_clone (own : Bool) (hR : RelA s f) (i : Nat) : AgreeA (fstep f (.clone i)) (call own s (.clone i)) := by
  simp only [call, fstep, HState.read, FState.read]
  rcases hR.at i with ⟨h1, h2⟩ | ⟨v, w, h1, h2, h3, h4⟩
  · simp only [h1, h2, bind, Out.bind]
    trivial
  · simp only [h1, h2, bind, Out.bind, Out.typed]
    cases v <;> cases w <;> simp only [hvShape, fvShape, reduceCtorEq] at h3 <;> first
      | (refine result_new hR (a := 0) (b := 0) (w := .stream _) ?_ (by simp) rfl
         simp [vrun, vstep, h2, fval])
      | (refine result_new hR (a := 0) (b := 0) (w := .tree _) ?_ (by simp) rfl
         simp [vrun, vstep, h2, fval])
      | (refine result_new hR (a := 0) (b := 0) (w := .owned _) ?_ (by simp) rfl
         simp [vrun, vstep, h2, fval])
      | (simp only [cloneOp]; exact hR.push (by simp only [hvShape, fvShape, h3]) rfl)

theorem call_next (own : Bool) (hR : RelA s f) (i : Nat) : AgreeA (fstep f (.next i)) (call own s (.next i)) := by
  rcases hR.readIter i with ⟨l, ts, h1, h2, h3, h5⟩ | ⟨h1, h2⟩
  · simp only [call, fstep, h1, h2, bind, Out.bind]
    have hl := shows_length h3
    cases ts with
    | nil =>
      cases l with
      | nil => exact hR.push rfl rfl
      | cons => cases hl
    | cons t ts =>
      cases l with
      | nil => cases hl
      | cons =>
        have hv : vrun (f.vars.map fval) [.next i] = some ((f.vars.map fval).set i (.owned ts) ++ ([] ++ .tree t :: [])) := by
          simp [vrun, vstep, h5, fval]
        have := result_ok hR (a := 0) (b := 0) (k := s.vars.length) hv (by simp)
          (dead_set (dead_self _) (fun y hy hd => by rw [h5] at hy; cases hy; cases hd))
          (borrowed_set (borrowed_self _) (by simp)) (by simp) rfl
        rw [zip_set _ _ h5 (by simp [fval]) (by simp), zip_self] at this
        exact this
  · simp only [call, fstep, h1, h2, bind, Out.bind]
    trivial

theorem call_setSpan (own : Bool) (hR : RelA s f) (i j : Nat) : AgreeA (fstep f (.setSpan i j)) (call own s (.setSpan i j)) := by
  rcases hR.readTree i with ⟨t, t', h1, h2, h3, h5⟩ | ⟨h1, h2⟩
  · rcases hR.readSpan j with ⟨x, g1, g2⟩ | ⟨g1, g2⟩
    · simp only [call, fstep, h1, h2, g1, g2, bind, Out.bind]
      refine change_set hR (a := 0) (w := .tree (t'.setSpan x)) h5 (by simp [fval]) ?_ (by simp)
      simp [vrun, vstep, h5, fval]
    · simp only [call, fstep, h1, h2, g1, g2, bind, Out.bind]
      trivial
  · simp only [call, fstep, h1, h2, bind, Out.bind]
    trivial

theorem call_groupStream (own : Bool) (hR : RelA s f) (i : Nat) :
    AgreeA (fstep f (.groupStream i)) (call own s (.groupStream i)) := by
  rcases hR.readGroup i with ⟨d, ts, x, h1, h2, h5⟩ | ⟨h1, h2⟩
  · simp only [call, fstep, h1, h2, bind, Out.bind]
    refine result_new hR (a := 0) (b := 0) (w := .stream ts) ?_ (by simp) rfl
    simp [vrun, vstep, h5, fval]
  · simp only [call, fstep, h1, h2, bind, Out.bind]
    trivial

theorem treeSpan_eq {h : Heap} {t : HTree} {t' : TokenTree} (hs : Shows h [t] [t']) : treeSpan t = t'.span := by
  cases hs <;> rfl

theorem ident_leaf {t : List Char} {x : Span} {r : TokenTree} (h : Ident.new (ε := Unit) t x = .ok r) (d ts y) :
    r ≠ .group d ts y := by
  simp only [Ident.new, bind, Res.bind] at h
  split at h <;> cases h
  simp [identNewUnchecked]

theorem identRaw_leaf {t : List Char} {x : Span} {r : TokenTree} (h : Ident.newRaw (ε := Unit) t x = .ok r) (d ts y) :
    r ≠ .group d ts y := by
  simp only [Ident.newRaw, bind, Res.bind] at h
  split at h <;> cases h
  simp [identNewRawUnchecked]

theorem result_leafs (hR : RelA s f) {r : Res Unit TokenTree} (h : ∀ t, r = .ok t → ∀ d ts x, t ≠ .group d ts x) :
    AgreeA (Out.bind (Out.ofRes r) (fun t => .ok (f.push (.tree t))))
      (Out.bind (Out.ofRes r) (fun t => s.result [.leaf (leafOf t)] s.vars.length)) := by
  cases r with
  | ok t => exact result_leaf hR (h t rfl)
  | _ => trivial

/-- Calls that take nothing by value. -/
theorem call_plain (own : Bool) (hR : RelA s f) (op : Wrap.Op) (ht : takes op = []) (he : extends_ op = []) :
    AgreeA (fstep f op) (call own s op) := by
  have hn : s.vars.length = (f.vars.map fval).length := by simp [hR.len]
  cases op with
  | intoCompiler | fromTree | intoIter | groupNew => cases ht
  | extendTrees | extendStreams => cases he
  | collectTrees is =>
    simp only [takes] at ht
    subst ht
    simp only [call, fstep, HState.reads, FState.reads, bind, Out.bind, List.length_nil, Nat.add_zero, List.flatMap_nil]
    refine result_new hR (a := 1) (b := 0) (w := .stream []) ?_ (by simp) rfl
    rw [hn]
    simp [treeArgs, HeapApi.extendTrees, vrun, vstep]
  | collectStreams is =>
    simp only [takes] at ht
    subst ht
    simp only [call, fstep, FState.reads, bind, Out.bind, List.flatten_nil]
    refine result_new hR (a := 1) (b := 0) (w := .stream []) ?_ (by simp) rfl
    rw [hn]
    exact vrun_new _
  | new =>
    simp only [call, fstep]
    refine result_new hR (a := 1) (b := 0) (w := .stream []) ?_ (by simp) rfl
    rw [hn]
    exact vrun_new _
  | fromStr src => exact call_fromStr own hR src
  | fromCompiler | spanFromCompiler => trivial
  | clone i => exact call_clone own hR i
  | isEmpty i => exact call_isEmpty own hR i
  | display i => exact (call_print own hR i).1
  | treeText i => exact (call_print own hR i).2
  | next i => exact call_next own hR i
  | setSpan i j => exact call_setSpan own hR i j
  | groupStream i => exact call_groupStream own hR i
  | debug alternate i => exact call_debug own hR alternate i
  | callSite | mixedSite | defSite => exact hR.push rfl rfl
  | invalidate =>
    simp only [call, fstep]
    rw [hR.sm]
    exact (hR.setSm _).push rfl rfl
  | resolvedAt i j | locatedAt i j | spanEq i j =>
    rcases hR.readSpan i with ⟨x, h1, h2⟩ | ⟨h1, h2⟩ <;>
    rcases hR.readSpan j with ⟨y, g1, g2⟩ | ⟨g1, g2⟩ <;>
    simp only [call, fstep, h1, h2, g1, g2, bind, Out.bind] <;> first | trivial | exact hR.push rfl rfl
  | unwrap i | localFile i =>
    rcases hR.readSpan i with ⟨x, h1, h2⟩ | ⟨h1, h2⟩ <;>
    simp only [call, fstep, h1, h2, bind, Out.bind] <;> first | trivial | exact hR.push rfl rfl
  | join i j =>
    rcases hR.readSpan i with ⟨x, h1, h2⟩ | ⟨h1, h2⟩ <;>
    rcases hR.readSpan j with ⟨y, g1, g2⟩ | ⟨g1, g2⟩ <;>
    simp only [call, fstep, h1, h2, g1, g2, bind, Out.bind] <;> try trivial
    rw [hR.sm]
    cases Out.ofRes (x.join f.sm y) with
    | ok r => cases r <;> exact hR.push rfl rfl
    | _ => trivial
  | span i =>
    rcases hR.readTree i with ⟨t, t', h1, h2, h3, -⟩ | ⟨h1, h2⟩ <;>
    simp only [call, fstep, h1, h2, bind, Out.bind] <;> try trivial
    rw [treeSpan_eq h3]
    exact hR.push rfl rfl
  | spanOpen i | spanClose i | delimiter i | delimSpan i =>
    rcases hR.readGroup i with ⟨d, ts, x, h1, h2, -⟩ | ⟨h1, h2⟩ <;>
    simp only [call, fstep, h1, h2, bind, Out.bind] <;> first | trivial | exact hR.push rfl rfl
  | delimJoin i | delimOpen i | delimClose i =>
    rcases hR.readDelim i with ⟨x, d, ts, h1, h2⟩ | ⟨h1, h2⟩ <;>
    simp only [call, fstep, h1, h2, bind, Out.bind] <;> first | trivial | exact hR.push rfl rfl
  | asChar i | spacing i =>
    rcases hR.readPunct i with ⟨x, h1, h2⟩ | ⟨h1, h2⟩ <;>
    simp only [call, fstep, h1, h2, bind, Out.bind] <;> first | trivial | exact hR.push rfl rfl
  | identEq i j | identCmp i j =>
    rcases hR.readIdent i with ⟨a, b, c, h1, h2, -⟩ | ⟨h1, h2, -⟩ <;>
    rcases hR.readIdent j with ⟨a', b', c', g1, g2, -⟩ | ⟨g1, g2, -⟩ <;>
    simp only [call, fstep, h1, h2, g1, g2, bind, Out.bind] <;> first | trivial | exact hR.push rfl rfl
  | identEqStr i t =>
    rcases hR.readIdent i with ⟨a, b, c, h1, h2, -⟩ | ⟨h1, h2, -⟩ <;>
    simp only [call, fstep, h1, h2, bind, Out.bind] <;> try trivial
    cases Out.ofRes (IdentData.eqStr ⟨a, b⟩ t) with
    | ok r => exact hR.push rfl rfl
    | _ => trivial
  | identHash i =>
    rcases hR.readIdent i with ⟨a, b, c, h1, h2, -⟩ | ⟨h1, h2, -⟩ <;>
    simp only [call, fstep, h1, h2, bind, Out.bind] <;> first | trivial | exact hR.push rfl rfl
  | debugIdent alternate i =>
    rcases hR.readIdent i with ⟨a, b, c, h1, -, h2⟩ | ⟨h1, -, h2⟩ <;>
    simp only [call, fstep, h1, h2, bind, Out.bind] <;> first | trivial | exact hR.push rfl rfl
  | identNew t i =>
    rcases hR.readSpan i with ⟨x, h1, h2⟩ | ⟨h1, h2⟩ <;>
    simp only [call, fstep, h1, h2, bind, Out.bind] <;> try trivial
    exact result_leafs hR (fun _ h => ident_leaf h)
  | identNewRaw t i =>
    rcases hR.readSpan i with ⟨x, h1, h2⟩ | ⟨h1, h2⟩ <;>
    simp only [call, fstep, h1, h2, bind, Out.bind] <;> try trivial
    exact result_leafs hR (fun _ h => identRaw_leaf h)
  | punctNew ch sp =>
    refine result_leafs hR (fun t h d ts x => ?_)
    simp only [PM2.punctNew] at h
    split at h <;> cases h
    simp
  | literalNew r => exact result_leaf hR (by simp [PM2.literalNew])
  | literalUnchecked r => exact result_leaf hR (by simp [PM2.literalNew])
  | byteCharacter b => exact result_leaf hR (by simp [PM2.literalNew])
  | cString bs =>
    simp only [call, fstep, bind, Out.bind]
    cases Out.ofRes (litCString bs) with
    | ok t => exact result_leaf hR (by simp [PM2.literalNew])
    | _ => trivial
  | literalFromStr src =>
    simp only [call, fstep]
    rw [hR.sm]
    rcases Literal.fromStr f.sm src with ⟨sm', r⟩
    cases r with
    | ok p =>
      exact result_leaf (hR.setSm sm') (t := .literal p.1 p.2) (by simp)
    | err e => exact (hR.setSm sm').push rfl rfl
    | _ => trivial
  | subspan i a b =>
    rcases hR.readLiteral i with ⟨r, x, h1, -, h2⟩ | ⟨h1, -, h2⟩ <;>
    simp only [call, fstep, h1, h2, bind, Out.bind] <;> try trivial
    cases PM2.subspan x a b <;> exact hR.push rfl rfl
  | value k i =>
    rcases hR.readLiteral i with ⟨r, x, h1, h2, -⟩ | ⟨h1, h2, -⟩ <;>
    simp only [call, fstep, h1, h2, bind, Out.bind, valueOfText_eq] <;> try trivial
    cases Out.ofRes (literalValue r k) with
    | ok y => exact hR.push rfl rfl
    | _ => trivial
  | errorSpan i | errorText i =>
    rcases hR.readError i with ⟨x, h1, h2⟩ | ⟨h1, h2⟩ <;>
    simp only [call, fstep, h1, h2, bind, Out.bind] <;> first | trivial | exact hR.push rfl rfl
  | byteRange i =>
    rcases hR.readSpan i with ⟨x, h1, h2⟩ | ⟨h1, h2⟩ <;>
    simp only [call, fstep, h1, h2, bind, Out.bind] <;> try trivial
    rw [hR.sm]
    cases Out.ofRes (x.byteRange f.sm) with
    | ok r => exact (hR.setSm _).push rfl rfl
    | _ => trivial
  | start i =>
    rcases hR.readSpan i with ⟨x, h1, h2⟩ | ⟨h1, h2⟩ <;>
    simp only [call, fstep, h1, h2, bind, Out.bind] <;> try trivial
    rw [hR.sm]
    cases Out.ofRes (x.start f.sm) with
    | ok r => exact hR.push rfl rfl
    | _ => trivial
  | end_ i =>
    rcases hR.readSpan i with ⟨x, h1, h2⟩ | ⟨h1, h2⟩ <;>
    simp only [call, fstep, h1, h2, bind, Out.bind] <;> try trivial
    rw [hR.sm]
    cases Out.ofRes (x.end_ f.sm) with
    | ok r => exact hR.push rfl rfl
    | _ => trivial
  | file i =>
    rcases hR.readSpan i with ⟨x, h1, h2⟩ | ⟨h1, h2⟩ <;>
    simp only [call, fstep, h1, h2, bind, Out.bind] <;> try trivial
    rw [hR.sm]
    cases Out.ofRes (x.file f.sm) with
    | ok r => exact hR.push rfl rfl
    | _ => trivial
  | sourceText i =>
    rcases hR.readSpan i with ⟨x, h1, h2⟩ | ⟨h1, h2⟩ <;>
    simp only [call, fstep, h1, h2, bind, Out.bind] <;> try trivial
    rw [hR.sm]
    cases Out.ofRes (x.sourceText f.sm) with
    | ok r =>
      obtain ⟨sm', t⟩ := r
      cases t <;> exact (hR.setSm _).push rfl rfl
    | _ => trivial
  | sizeHint i =>
    rcases hR.readIter i with ⟨l, ts, h1, h2, h3, -⟩ | ⟨h1, h2⟩ <;>
    simp only [call, fstep, h1, h2, bind, Out.bind] <;> try trivial
    simp only [Heap.sizeHint, shows_length h3]
    exact hR.push rfl rfl

/-! ### Calls that take something by value -/

/-- What the call does to values, if it is given what it takes (`own`) or clones. -/
def gives (own : Bool) (f : FState) (op : Wrap.Op) : Out FState := fact f (if own then .give op else .call op)

theorem gives_ok {own : Bool} {op : Wrap.Op} {g : FState} (h : fstep f op = .ok g) (hn : own = true → (extends_ op ++ takes op).Nodup) :
    gives own f op = .ok (if own then g.kill (takes op) else g) := by
  cases own with
  | false => exact h
  | true =>
    simp only [gives, if_true, fact]
    rw [if_pos (hn rfl), h]
    rfl

theorem gives_ill {own : Bool} {op : Wrap.Op} (h : fstep f op = .ill) : gives own f op = .ill := by
  cases own with
  | false => exact h
  | true =>
    simp only [gives, if_true, fact, h]
    split <;> rfl

theorem kill_push : ∀ (is : List Nat) (f : FState) (w : FValue), (∀ i ∈ is, i < f.vars.length) →
    (f.push w).kill is = (f.kill is).push w
  | [], _, _, _ => rfl
  | i :: is, f, w, h => by
    simp only [FState.kill]
    have : (f.push w).set i (.plain .none) = (f.set i (.plain .none)).push w := by
      simp only [FState.push, FState.set, List.set_append_left _ _ (h i (by simp))]
    rw [this, kill_push is _ w (by simpa [FState.set] using fun j hj => h j (by simp [hj]))]

theorem kill_set : ∀ (is : List Nat) (f : FState) (i : Nat) (w : FValue), i ∉ is → (f.set i w).kill is = (f.kill is).set i w
  | [], _, _, _, _ => rfl
  | j :: is, f, i, w, h => by
    simp only [List.mem_cons, not_or] at h
    simp only [FState.kill]
    have : (f.set i w).set j (.plain .none) = (f.set j (.plain .none)).set i w := by
      simp only [FState.set, List.set_comm _ _ h.1]
    rw [this, kill_set is _ i w h.2]

theorem Tokens.lt {fv : List FValue} {is : List Nat} (h : Tokens fv is) : ∀ i ∈ is, i < fv.length := fun i hi => by
  obtain ⟨x, hx, -⟩ := h i hi
  exact (List.getElem?_eq_some_iff.mp hx).1

/-- Values of the arguments by value, and of the others. -/
def kept (own : Bool) (v : List Val) (is : List Nat) : List Val := if own then killv v is else v

@[simp] theorem kept_length (own : Bool) (v : List Val) (is : List Nat) : (kept own v is).length = v.length := by
  cases own <;> simp [kept]

theorem vrun_args' {α : Type} {K : Kind α} {own : Bool} {is : List Nat} {as : List α} {v : List Val} (h : At K v is as)
    (hn : own = true → is.Nodup) :
    vrun v (is.map K.clone ++ if own then is.map K.drop else []) = some (kept own v is ++ as.map K.emb) := by
  rw [vrun_args h]
  cases own with
  | false => rfl
  | true => simp [kept, hn rfl]

theorem result_take {own : Bool} (hR : RelA s f) {ops : List Heap.Op} {k : Nat} {a b : Nat} {w : Val} {is : List Nat}
    (ht : Tokens f.vars is)
    (hv : vrun (f.vars.map fval) ops =
      some (kept own (f.vars.map fval) is ++ (List.replicate a .dead ++ w :: List.replicate b .dead)))
    (hw : ∀ ts, w ≠ .borrowed ts) (hk : k = s.vars.length + a) :
    AgreeA (.ok (if own then (f.push (ofVal w)).kill is else f.push (ofVal w))) (s.result ops k) := by
  cases own with
  | false => exact result_new hR hv hw hk
  | true =>
    simp only [if_true]
    rw [kill_push _ _ _ ht.lt]
    exact result_kill hR ht hv hw hk

theorem change_take {own : Bool} (hR : RelA s f) {ops : List Heap.Op} {a i : Nat} {w : Val} {x : FValue} {is : List Nat}
    (ht : Tokens f.vars is) (hx : f.vars[i]? = some x) (hxd : fval x ≠ .dead) (hi : own = true → i ∉ is)
    (hv : vrun (f.vars.map fval) ops = some ((kept own (f.vars.map fval) is).set i w ++ List.replicate a .dead))
    (hw : ∀ ts, w ≠ .borrowed ts) :
    AgreeA (.ok (if own then (f.set i (ofVal w)).kill is else f.set i (ofVal w))) (s.change ops) := by
  cases own with
  | false => exact change_set hR hx hxd hv hw
  | true =>
    simp only [if_true]
    rw [kill_set _ _ _ _ (hi rfl)]
    exact change_kill hR ht hx hxd hv hw

end

end PM2
