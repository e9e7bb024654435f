import Verif.Proof.HeapParse
import Verif.Spec.HeapParse
import Verif.Props.Streams
import Verif.Props.Total
import Verif.Spec.Decide
/-! # C108: the parser on the heap -/

set_option linter.unusedSectionVars false

namespace PM2.Props
open Heap Spec

/-! ### Leaving the variables of the parser -/

theorem heap_shows_mono {h h' : Heap} (hm : ∀ a c, h.get a = some c → h'.get a = some c) {l : List HTree} {ts : List TokenTree}
    (hs : Shows h l ts) : Shows h' l ts := by
  induction hs with
  | nil => exact .nil
  | ident _ ih => exact .ident ih
  | punct _ ih => exact .punct ih
  | literal _ ih => exact .literal ih
  | group hg _ _ ih1 ih2 => exact .group (hm _ _ hg) ih1 ih2

theorem heap_holds_mono {h h' : Heap} (hm : ∀ a c, h.get a = some c → h'.get a = some c) {r : Root} {w : Val}
    (hh : Spec.Holds h r w) : Spec.Holds h' r w := by
  cases hh with
  | dead => exact .dead
  | stream hg hs => exact .stream (hm _ _ hg) (heap_shows_mono hm hs)
  | borrowed hg hs => exact .borrowed (hm _ _ hg) (heap_shows_mono hm hs)
  | tree hs => exact .tree (heap_shows_mono hm hs)
  | owned hs => exact .owned (heap_shows_mono hm hs)

theorem Sep_mono {s0 s : State} (h : Sep s0 s) (a : Addr) (c : Cell) (hg : s0.heap.get a = some c) : s.heap.get a = some c := by
  rw [h.low a (get_length hg)]
  exact hg

theorem Sep_take {s0 s : State} (h : Sep s0 s) : s.vars.take s0.vars.length = s0.vars := by
  refine List.ext_getElem? fun i => ?_
  by_cases hi : i < s0.vars.length
  · rw [List.getElem?_take_of_lt hi]
    exact h.vars i hi
  · rw [List.getElem?_eq_none (by simp; omega), List.getElem?_eq_none (by omega)]

theorem varRefs_dead : ∀ (l : List Root), (∀ (i : Nat) r, l[i]? = some r → r = .dead) → varRefs l = []
  | [], _ => rfl
  | r :: l, h => by
    have h1 := h 0 r rfl
    have h2 := varRefs_dead l (fun i q hq => h (i + 1) q hq)
    subst h1
    simpa [varRefs] using h2

theorem varRefs_one : ∀ (l : List Root) (k : Nat) (r : Root), l[k]? = some r → (∀ (i : Nat) q, i ≠ k → l[i]? = some q → q = .dead) →
    varRefs l = rootRefs r
  | [], _, _, h, _ => by simp at h
  | q :: l, 0, r, h, hd => by
    have h2 := varRefs_dead l (fun i q hq => hd (i + 1) q (by omega) hq)
    simp only [List.getElem?_cons_zero, Option.some.injEq] at h
    subst h
    show rootRefs q ++ varRefs l = _
    rw [h2, List.append_nil]
  | q :: l, k + 1, r, h, hd => by
    have h1 := hd 0 q (by omega) rfl
    have h2 := varRefs_one l k r h (fun i q hi hq => hd (i + 1) q (by omega) hq)
    subst h1
    exact h2

/-- Dead variables do not matter. -/
theorem Rel_trim {s0 s : State} {v0 v : List Val} (h0 : Rel s0 v0) (hR : Rel s v) (hsep : Sep s0 s) {r : List Root} {w : List Val}
    (hl : r.length = w.length) (hh : ∀ (i : Nat) q u, r[i]? = some q → w[i]? = some u → Spec.Holds s.heap q u)
    (hb : ∀ (i : Nat) a, r[i]? ≠ some (.borrowed a))
    (hr : varRefs (s.vars.drop s0.vars.length) = varRefs r) : Rel ⟨s.heap, s0.vars ++ r⟩ (v0 ++ w) := by
  have hrefs : varRefs (s0.vars ++ r) = varRefs s.vars := by
    rw [varRefs_append, ← hr, ← varRefs_append]
    congr 1
    conv => lhs; lhs; rw [← Sep_take hsep]
    exact List.take_append_drop ..
  refine ⟨by simp [h0.len, hl], fun i q u hq hu => ?_, ?_, fun i a hi => ?_⟩
  · change (s0.vars ++ r)[i]? = some q at hq
    by_cases hi : i < s0.vars.length
    · rw [List.getElem?_append_left hi] at hq
      rw [List.getElem?_append_left (by rw [← h0.len]; exact hi)] at hu
      exact heap_holds_mono (Sep_mono hsep) (h0.holds i q u hq hu)
    · rw [List.getElem?_append_right (by omega)] at hq
      rw [List.getElem?_append_right (by rw [← h0.len]; omega), ← h0.len] at hu
      exact hh _ _ _ hq hu
  · show Inv s.heap (fun x => (varRefs (s0.vars ++ r)).count x)
    rw [hrefs]
    exact hR.inv
  · change (s0.vars ++ r)[i]? = _ at hi
    show (varRefs (s0.vars ++ r)).count a + _ = 1
    rw [hrefs]
    by_cases hi' : i < s0.vars.length
    · rw [List.getElem?_append_left hi', ← hsep.vars i hi'] at hi
      exact hR.uniq i a hi
    · rw [List.getElem?_append_right (by omega)] at hi
      exact absurd hi (hb _ _)

theorem holds_dead {h : Heap} {r : Root} (hh : Spec.Holds h r .dead) : r = .dead := by cases hh; rfl

/-- When no variable but those of `s` is left, no cell but those of `s` is left. -/
theorem heap_restored {s t : State} {v w : List Val} (hs : Rel s v) (ht : Rel t w) (hv : ∀ r ∈ t.vars, r ∈ s.vars ∨ r = .dead)
    (hc : OldCells s t) (a : Addr) : t.heap.get a = s.heap.get a := by
  by_cases ha : a < s.heap.length
  · exact hc a ha
  · have h1 : s.heap.get a = none := by
      cases e : s.heap.get a with
      | none => rfl
      | some c => exact absurd (get_length e) ha
    rw [h1]
    cases e : t.heap.get a with
    | none => rfl
    | some c =>
      have key : ∀ {b}, Owned t b → Owned s b := by
        intro b hb
        induction hb with
        | root hr hp =>
          rcases hv _ hr with h | h
          · exact .root h hp
          · subst h; exact hp.elim
        | child _ hg hp ih =>
          obtain ⟨c', hg'⟩ := (rel_live hs _).mpr ih
          rw [hc _ (get_length hg')] at hg
          exact .child ih hg hp
      obtain ⟨c', hc'⟩ := (rel_live hs a).mpr (key ((rel_live ht a).mp ⟨c, e⟩))
      rw [h1] at hc'
      cases hc'

theorem groupsIn_eq : ∀ t : TokenTree, groupsIn t = treeGroups t := by
  have key : ∀ n, (∀ t : TokenTree, sizeOf t < n → groupsIn t = treeGroups t) ∧
      (∀ ts : List TokenTree, sizeOf ts < n → groupsIn' ts = streamGroups ts) := by
    intro n
    induction n with
    | zero => exact ⟨fun _ h => by omega, fun _ h => by omega⟩
    | succ n ih =>
      refine ⟨fun t ht => ?_, fun ts ht => ?_⟩
      · cases t with
        | group d ts sp =>
          simp only [groupsIn, treeGroups]
          have : sizeOf ts < n := by simp at ht; omega
          rw [ih.2 ts this]; omega
        | ident | punct | literal => rfl
      · cases ts with
        | nil => rfl
        | cons t ts =>
          simp only [groupsIn', streamGroups]
          simp at ht
          rw [ih.1 t (by omega), ih.2 ts (by omega)]
  exact fun t => (key (sizeOf t + 1)).1 t (by omega)

theorem groupsIn'_eq (ts : List TokenTree) : groupsIn' ts = streamGroups ts := by
  induction ts with
  | nil => rfl
  | cons t ts ih => simp only [groupsIn', streamGroups, ih, groupsIn_eq]

section
variable [UnicodeTables]

/-- What parsing does to the state, with what the variables hold. -/
structure Parsed (s : State) (v : List Val) (ts : List TokenTree) (s' : State) : Prop where
  rel : Rel s' (v ++ [.stream ts])
  vars : ∃ a, s'.vars = s.vars ++ [.stream a]
  old : OldCells s s'
  new : NewCells s s' (1 + streamGroups ts)
  sep : Sep s s'

/-- What a failed parse does. -/
structure Failed (s : State) (v : List Val) (s' : State) : Prop where
  rel : Rel s' v
  vars : s'.vars = s.vars
  heap : ∀ a, s'.heap.get a = s.heap.get a

theorem getCursor_conv {ε : Type} (sm : SourceMap) (src : List Char) :
    getCursor (ε := ε) sm src = conv (getCursor sm src) := by
  have h1 : ∀ a b, addU32 (ε := ε) a b = conv (addU32 a b) := by
    intro a b; unfold addU32; split <;> rfl
  have h2 : sm.nextStartPos (ε := ε) = conv sm.nextStartPos := by
    unfold SourceMap.nextStartPos
    split
    · rfl
    · exact h1 _ _
  simp only [getCursor, SourceMap.addFile, bind, h2, h1, conv_bind]
  rfl

theorem parse_same {s : State} {v : List Val} (hR : Rel s v) (sm : SourceMap) (src : List Char) :
    (Heap.parse sm s src).1 = (TokenStream.fromStr sm src).1 ∧
    Same (Parsed s v) (fun e e' => e'.1 = e ∧ Failed s v e'.2) (TokenStream.fromStr sm src).2 (Heap.parse sm s src).2 := by
  simp only [TokenStream.fromStr, Heap.parse]
  rw [getCursor_conv (ε := Span), getCursor_conv (ε := Span × State)]
  cases getCursor (ε := Empty) sm src with
  | err e => exact e.elim
  | panic => exact ⟨rfl, trivial⟩
  | diverge => exact ⟨rfl, trivial⟩
  | ok p =>
    obtain ⟨sm', c⟩ := p
    simp only [conv, true_and]
    have hs := fromStr_same hR src c.off
    cases e1 : fromStrAt src c.off with
    | ok ts =>
      cases e2 : fromStrH s src c.off with
      | ok r =>
        obtain ⟨s', i⟩ := r
        rw [e1, e2] at hs
        have ht : Tight s s' [(i, .stream ts)] := hs
        obtain ⟨w, hw, hS⟩ := ht.run.rel
        have hsep := ht.run.sep
        obtain ⟨hi, hwi⟩ := hS.hold i _ (.head _)
        obtain ⟨r, hr, hh⟩ := hw.val hwi
        cases hh with
        | @stream a cl _ hg hsh =>
          simp only [hr, Option.toList, Sep_take hsep]
          refine ⟨Rel_trim hR hw hsep rfl ?_ ?_ ?_, ⟨a, rfl⟩, hsep.low, ⟨?_, ht.one⟩, ?_⟩
          · intro k q u hq hu
            cases k with
            | zero => cases hq; cases hu; exact .stream hg hsh
            | succ k => cases hq
          · intro k b hk
            cases k <;> cases hk
          · show _ = rootRefs (.stream a)
            refine varRefs_one _ (i - s.vars.length) _ ?_ ?_
            · rw [List.getElem?_drop, show s.vars.length + (i - s.vars.length) = i by omega]
              exact hr
            · intro k q hk hq
              rw [List.getElem?_drop] at hq
              obtain ⟨u, hu, hq'⟩ := Rel.var hw hq
              have := hS.dead _ u (by omega) hu (by simp; omega)
              subst this
              exact holds_dead hq'
          · rw [ht.count]
            simp only [cellsOf, List.map_cons, List.map_nil, List.sum_cons, List.sum_nil, cells, groupsIn'_eq]
            rfl
          · refine Sep.addVar (s := ⟨s'.heap, s.vars⟩) ⟨hsep.low, hsep.hlen, hsep.closed, Nat.le_refl _, fun _ _ => rfl, ?_⟩ ?_
            · intro k q hk hq
              have := (List.getElem?_eq_some_iff.mp hq).1
              exact absurd this (by show ¬ k < s.vars.length; omega)
            · exact hsep.fresh i _ hi hr
      | err | panic | diverge => rw [e1, e2] at hs; exact hs.elim
    | err e =>
      cases e2 : fromStrH s src c.off with
      | err e' =>
        obtain ⟨e', s'⟩ := e'
        rw [e1, e2] at hs
        obtain ⟨h1, hrun⟩ : e' = e ∧ Run s s' [] := hs
        obtain ⟨w, hw, hS⟩ := hrun.rel
        have hsep := hrun.sep
        have hrel : Rel ⟨s'.heap, s.vars ++ []⟩ (v ++ []) := by
          refine Rel_trim hR hw hsep rfl (by simp) (by simp) ?_
          refine varRefs_dead _ fun k q hq => ?_
          rw [List.getElem?_drop] at hq
          obtain ⟨u, hu, hq'⟩ := Rel.var hw hq
          have := hS.dead _ u (by omega) hu (by simp)
          subst this
          exact holds_dead hq'
        simp only [List.append_nil] at hrel
        refine ⟨h1, ?_, Sep_take hsep, ?_⟩
        · show Rel ⟨s'.heap, s'.vars.take s.vars.length⟩ v
          rw [Sep_take hsep]
          exact hrel
        · exact heap_restored (t := ⟨s'.heap, s.vars⟩) hR hrel (fun r hr => .inl hr) hsep.low
      | ok | panic | diverge => rw [e1, e2] at hs; exact hs.elim
    | panic =>
      cases e2 : fromStrH s src c.off with
      | panic => exact trivial
      | ok | err | diverge => rw [e1, e2] at hs; exact hs.elim
    | diverge =>
      cases e2 : fromStrH s src c.off with
      | diverge => exact trivial
      | ok | err | panic => rw [e1, e2] at hs; exact hs.elim

/-- One step: the heap and the values agree. -/
theorem act_same {s : State} {v : List Val} (hR : Rel s v) (sm : SourceMap) (a : Act) :
    Same (fun p p' => p'.1 = p.1 ∧ Rel p'.2 p.2) (fun _ _ => True) (vact sm v a) (act sm s a) := by
  cases a with
  | op o =>
    simp only [vact, act]
    cases e : vstep v o with
    | none => simp only [step_none hR e, bind, Res.bind]; trivial
    | some v' =>
      obtain ⟨s', e', hR'⟩ := step_spec hR e
      simp only [e', bind, Res.bind]
      exact ⟨rfl, hR'⟩
  | parse src =>
    obtain ⟨h1, h2⟩ := parse_same hR sm src
    simp only [vact, act]
    generalize TokenStream.fromStr sm src = x at h1 h2 ⊢
    generalize Heap.parse sm s src = y at h1 h2 ⊢
    obtain ⟨sm1, x⟩ := x
    obtain ⟨sm2, y⟩ := y
    cases x <;> cases y <;> first | exact h2.elim | skip
    · exact ⟨h1, h2.rel⟩
    · exact ⟨h1, h2.2.rel⟩
    · trivial
    · trivial

theorem acts_same : ∀ (as : List Act) {s : State} {v : List Val}, Rel s v → ∀ (sm : SourceMap),
    Same (fun p p' => p'.1 = p.1 ∧ Rel p'.2 p.2) (fun _ _ => True) (vacts sm v as) (acts sm s as)
  | [], _, _, hR, _ => ⟨rfl, hR⟩
  | a :: as, s, v, hR, sm => by
    have h := act_same hR sm a
    simp only [vacts, acts]
    cases e1 : vact sm v a <;> cases e2 : act sm s a <;> rw [e1, e2] at h <;> first | exact h.elim | skip
    · rename_i p q
      obtain ⟨sm1, v1⟩ := p
      obtain ⟨sm2, s1⟩ := q
      obtain ⟨h1, h2⟩ := h
      subst h1
      exact acts_same as h2 _
    · trivial
    · trivial
    · trivial

theorem reached_rel {sm : SourceMap} {s : State} (h : Reached sm s) :
    ∃ v, Rel s v ∧ ∃ as, vacts SourceMap.init [] as = .ok (sm, v) := by
  obtain ⟨as, h⟩ := h
  have := acts_same as Rel.init SourceMap.init
  rw [h] at this
  cases e : vacts SourceMap.init [] as <;> rw [e] at this <;> first | exact this.elim | skip
  rename_i p
  obtain ⟨sm', v⟩ := p
  obtain ⟨h1, h2⟩ := this
  simp only at h1 h2
  subst h1
  exact ⟨v, h2, as, e⟩

/-! ### C108 -/

/-- **C108.** In any state of a program, parsing on the heap gives the stream that the parser gives, in a new variable: the
caller's variables and all cells that were there are as they were. One cell is allocated for the stream and one for each of
its groups, no more; each has one owner. -/
theorem C108_ok {sm sm' : SourceMap} {s : State} (hs : Reached sm s) {src : List Char} {ts : List TokenTree}
    (h : TokenStream.fromStr sm src = (sm', .ok ts)) :
    ∃ s' a, Heap.parse sm s src = (sm', .ok s') ∧ s'.vars = s.vars ++ [.stream a] ∧
      VarHolds s' s.vars.length (.stream ts) ∧ OldCells s s' ∧ NewCells s s' (1 + streamGroups ts) := by
  obtain ⟨v, hR, -⟩ := reached_rel hs
  obtain ⟨h1, h2⟩ := parse_same hR sm src
  rw [h] at h1 h2
  generalize Heap.parse sm s src = y at h1 h2 ⊢
  obtain ⟨sm2, y⟩ := y
  cases y <;> first | exact h2.elim | skip
  rename_i s'
  obtain ⟨hrel, ⟨a, hv⟩, ho, hn, -⟩ := h2
  refine ⟨s', a, by rw [show sm2 = sm' from h1], hv, hrel.val ?_, ho, hn⟩
  simp [hR.len]

/-- **C108.** When the text does not parse, the heap is as it was: whatever streams and groups have been built up to the
error are freed, at any depth of open delimiters, and nothing else is. -/
theorem C108_err {sm sm' : SourceMap} {s : State} (hs : Reached sm s) {src : List Char} {e : Span}
    (h : TokenStream.fromStr sm src = (sm', .err e)) :
    ∃ s', Heap.parse sm s src = (sm', .err (e, s')) ∧ s'.vars = s.vars ∧ ∀ a, s'.heap.get a = s.heap.get a := by
  obtain ⟨v, hR, -⟩ := reached_rel hs
  obtain ⟨h1, h2⟩ := parse_same hR sm src
  rw [h] at h1 h2
  generalize Heap.parse sm s src = y at h1 h2 ⊢
  obtain ⟨sm2, y⟩ := y
  cases y <;> first | exact h2.elim | skip
  rename_i p
  obtain ⟨e', s'⟩ := p
  obtain ⟨h3, -, hv, hh⟩ := h2
  simp only at h1 h3
  subst h1 h3
  exact ⟨s', rfl, hv, hh⟩

/-- **C108.** Dropping the parsed stream frees what parsing it has allocated: the heap is as it was before. -/
theorem C108_drop {sm sm' : SourceMap} {s s' : State} (hs : Reached sm s) {src : List Char}
    (h : Heap.parse sm s src = (sm', .ok s')) :
    ∃ s'', Heap.step s' (.dropStream s.vars.length) = .ok s'' ∧ s''.vars = s.vars ++ [.dead] ∧
      ∀ a, s''.heap.get a = s.heap.get a := by
  obtain ⟨v, hR, -⟩ := reached_rel hs
  obtain ⟨h1, h2⟩ := parse_same hR sm src
  rw [h] at h1 h2
  generalize TokenStream.fromStr sm src = y at h1 h2
  obtain ⟨sm2, y⟩ := y
  cases y <;> first | exact h2.elim | skip
  rename_i ts
  obtain ⟨hrel, ⟨a, hv⟩, ho, hn, hsep⟩ := h2
  have hS : Sees s.vars.length (v ++ [.stream ts]) [(s.vars.length, .stream ts)] := by
    refine ⟨?_, by simp, ?_⟩
    · intro i w hm
      simp only [List.mem_singleton, Prod.mk.injEq] at hm
      obtain ⟨rfl, rfl⟩ := hm
      exact ⟨Nat.le_refl _, by simp [hR.len]⟩
    · intro i w hi hw hn
      have := (List.getElem?_eq_some_iff.mp hw).1
      simp [← hR.len] at this hn
      omega
  obtain ⟨s'', e, hrun⟩ := dropStream_run ⟨⟨_, hrel, hS⟩, hsep⟩
  have hvars : s''.vars = s.vars ++ [.dead] := by
    have e' := e
    simp only [Heap.step, hv] at e'
    simp only [List.getElem?_append_right (Nat.le_refl _), Nat.sub_self, List.getElem?_cons_zero] at e'
    simp only [bind, Res.bind] at e'
    split at e' <;> cases e'
    simp
  refine ⟨s'', e, hvars, ?_⟩
  obtain ⟨w, hw, -⟩ := hrun.rel
  refine heap_restored hR hw ?_ hrun.sep.low
  rw [hvars]
  intro r hr
  simpa using hr

/-- **C108.** Programs that parse, and make, clone, change, iterate and drop streams: sharing is not observable. A program that
makes sense on values runs on the heap without touching freed memory, and afterwards every variable holds what it holds in the
run on values. -/
theorem C108_values {as : List Act} {sm : SourceMap} {v : List Val} (h : vacts SourceMap.init [] as = .ok (sm, v)) :
    ∃ s, acts SourceMap.init State.init as = .ok (sm, s) ∧ s.vars.length = v.length ∧
      ∀ i w, v[i]? = some w → VarHolds s i w := by
  have := acts_same as Rel.init SourceMap.init
  rw [h] at this
  cases e : acts SourceMap.init State.init as <;> rw [e] at this <;> first | exact this.elim | skip
  rename_i p
  obtain ⟨sm', s⟩ := p
  obtain ⟨h1, h2⟩ := this
  simp only at h1 h2
  subst h1
  exact ⟨s, rfl, h2.len, fun i w hw => h2.val hw⟩

/-- **C108.** The other programs end in the same way: one that rustc rejects is rejected, and one panics on the heap only if a
parse panics for want of positions. -/
theorem C108_others (as : List Act) :
    (vacts SourceMap.init [] as = .err () → acts SourceMap.init State.init as = .err ()) ∧
    (acts SourceMap.init State.init as = .panic → vacts SourceMap.init [] as = .panic) ∧
    (acts SourceMap.init State.init as = .diverge → vacts SourceMap.init [] as = .diverge) := by
  have := acts_same as Rel.init SourceMap.init
  refine ⟨fun h => ?_, fun h => ?_, fun h => ?_⟩ <;> rw [h] at this
  · cases e : acts SourceMap.init State.init as <;> rw [e] at this <;> first | exact this.elim | rfl
  · cases e : vacts SourceMap.init [] as <;> rw [e] at this <;> first | exact this.elim | rfl
  · cases e : vacts SourceMap.init [] as <;> rw [e] at this <;> first | exact this.elim | rfl

private theorem base_append (a b : List (List Char)) :
    base (a ++ b) (a ++ b).length = base a a.length + (b.map (fun t => t.length + 1)).sum := by
  unfold base
  rw [List.take_length, List.take_length, List.map_append, List.sum_append_nat, Nat.add_assoc]

private theorem vacts_total : ∀ (as : List Act) {sm : SourceMap} {texts : List (List Char)} (v : List Val), History sm texts →
    base (texts ++ actTexts as) (texts ++ actTexts as).length ≤ 2 ^ 32 →
      vacts sm v as ≠ .panic ∧ vacts sm v as ≠ .diverge
  | [], _, _, _, _, _ => by simp [vacts]
  | .op o :: as, sm, texts, v, h, hb => by
    simp only [vacts, vact]
    cases vstep v o with
    | none => simp
    | some v' => exact vacts_total as v' h hb
  | .parse src :: as, sm, texts, v, h, hb => by
    have hroom : Room texts src := by
      rw [base_append] at hb
      simp only [actTexts, List.map_cons, List.sum_cons] at hb
      unfold Room
      omega
    have hl : src.length < 2 ^ 32 := by unfold Room at hroom; omega
    have h' := History.parse src h hl
    rw [if_pos hroom] at h'
    have ih := fun v => vacts_total as v h' (by simpa [actTexts] using hb)
    have ht := C01_parse_total h hroom
    simp only [vacts, vact]
    generalize TokenStream.fromStr sm src = x at ih ht
    obtain ⟨sm', x⟩ := x
    rcases ht with ⟨ts, e⟩ | ⟨e', e⟩ <;> simp only at e <;> subst e <;> exact ih _

/-- **C108.** As long as there are positions for all of its texts, a program ends normally or is one that rustc rejects: no
parse and no drop panics, touches freed memory or recurses too deeply. -/
theorem C108_total (as : List Act) (h : base (actTexts as) (actTexts as).length ≤ 2 ^ 32) :
    acts SourceMap.init State.init as ≠ .panic ∧ acts SourceMap.init State.init as ≠ .diverge := by
  obtain ⟨h1, h2⟩ := vacts_total as [] .init (by simpa using h)
  obtain ⟨-, h3, h4⟩ := C108_others as
  exact ⟨fun e => h1 (h3 e), fun e => h2 (h4 e)⟩

/-- **C108.** In all of these programs, at any time, the cells that are allocated are those that a variable owns. -/
theorem C108_live {sm : SourceMap} {s : State} (hs : Reached sm s) (a : Addr) :
    (∃ c, s.heap.get a = some c) ↔ Owned s a := by
  obtain ⟨v, hR, -⟩ := reached_rel hs
  exact rel_live hR a

end

/-! ### Concrete cases -/

section
attribute [local instance] sampleTables sampleTables_lawful

deriving instance DecidableEq for Val

/-- A program: `a(b)` is parsed and cloned. -/
private def heapParseEx : List Act := [.parse ['a', '(', 'b', ')'], .op (.cloneStream 0)]

private def heapParseState : State :=
  ⟨[some ⟨1, [.ident ['b'] false ⟨3, 4⟩]⟩, some ⟨2, [.ident ['a'] false ⟨1, 2⟩, .group .parenthesis 0 ⟨2, 5⟩]⟩],
    [.stream 1, .stream 1]⟩

private def heapParseMap : SourceMap :=
  ⟨[⟨[], ⟨0, 0⟩, [0], []⟩, ⟨['a', '(', 'b', ')'], ⟨1, 5⟩, [0], []⟩]⟩

private theorem heapParseReached : Reached heapParseMap heapParseState := ⟨heapParseEx, by decide +kernel⟩

/-- C108_ok: `[]x` is parsed in the state after the program. -/
example : (Heap.parse heapParseMap heapParseState ['[', ']', 'x']).2 =
    .ok ⟨heapParseState.heap ++ [some ⟨1, []⟩, some ⟨1, [.group .bracket 2 ⟨6, 8⟩, .ident ['x'] false ⟨8, 9⟩]⟩],
      [.stream 1, .stream 1, .stream 3]⟩ := by decide +kernel

/-- C108_err: `([]x` does not parse; the cell of `[]` is freed. -/
example : (Heap.parse heapParseMap heapParseState ['(', '[', ']', 'x']).2 =
    .err (⟨6, 6⟩, ⟨heapParseState.heap ++ [none], [.stream 1, .stream 1]⟩) := by decide +kernel

/-- C108_values: the program on values, followed by a text that does not parse and a drop. -/
example : vacts SourceMap.init [] (heapParseEx ++ [.parse [']'], .op (.dropStream 0)]) =
    .ok (⟨heapParseMap.files ++ [⟨[']'], ⟨6, 7⟩, [0], []⟩]⟩,
      [.dead, .stream [.ident ['a'] false ⟨1, 2⟩, .group .parenthesis [.ident ['b'] false ⟨3, 4⟩] ⟨2, 5⟩]]) := by
  decide +kernel

/-- C108_total: the texts of the program have room. -/
example : base (actTexts heapParseEx) (actTexts heapParseEx).length ≤ 2 ^ 32 := by decide +kernel

end

end PM2.Props
