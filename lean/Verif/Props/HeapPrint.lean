import Verif.Props.HeapParse
import Verif.Props.Writer
import Verif.Props.Debug
import Verif.Proof.HeapPrint
import Verif.Spec.Decide
/-!
# C109: Printing from the heap
-/

set_option linter.unusedSectionVars false

namespace PM2.Props
open Spec Heap

section
variable [UnicodeTables]

private theorem reached_counted {sm : SourceMap} {s : State} (hs : Reached sm s) : Counted s.heap := by
  obtain ⟨v, hR, -⟩ := reached_rel hs
  exact hR.inv.pos

/-- **C109.** A stream in a variable, in any state that a program of the thread gets to, is printed like its value, whatever
the writer does, and then the heap is what it was: `Debug`, which clones the stream and drops the trees of the clone, frees
nothing too early and leaves nothing behind, also when the writer fails. -/
theorem C109_stream {sm : SourceMap} {s : State} (hs : Reached sm s) {i : Nat} {a : Addr} {ts : List TokenTree}
    (ha : s.vars[i]? = some (.stream a)) (hv : VarHolds s i (.stream ts)) {n : Nat} (hn : streamNesting ts ≤ n)
    (loc alternate : Bool) {σ : Type} (w : Writer σ) (x : σ) :
    (displayH n a).run σ w x s.heap = .ok ((displayTo {} ts).run σ w x, s.heap) ∧
    (debugStreamH loc alternate n a).run σ w x s.heap = .ok ((debugStreamTo loc alternate ts).run σ w x, s.heap) := by
  obtain ⟨r, h1, h2⟩ := hv
  rw [ha] at h1
  cases h1
  cases h2 with
  | stream hg h3 => exact ⟨displayH_as hg h3 hn σ w x, debugStreamH_as (reached_counted hs) hg h3 hn σ w x⟩

/-- **C109.** So is a tree, … -/
theorem C109_tree {sm : SourceMap} {s : State} (hs : Reached sm s) {i : Nat} {t : HTree} {t' : TokenTree}
    (ha : s.vars[i]? = some (.tree t)) (hv : VarHolds s i (.tree t')) {n : Nat} (hn : treeNesting t' ≤ n)
    (o : FmtOpts) (loc alternate : Bool) {σ : Type} (w : Writer σ) (x : σ) :
    (displayTreeH o n t).run σ w x s.heap = .ok ((displayTreeTo o t').run σ w x, s.heap) ∧
    (debugTreeH loc alternate n t).run σ w x s.heap = .ok ((debugTreeTo loc alternate t').run σ w x, s.heap) := by
  obtain ⟨r, h1, h2⟩ := hv
  rw [ha] at h1
  cases h1
  cases h2 with
  | tree h3 => exact ⟨displayTreeH_as o h3 hn σ w x, debugTreeH_as (reached_counted hs) h3 hn σ w x⟩

/-- **C109.** … and an iterator, which prints what it has left. -/
theorem C109_iter {sm : SourceMap} {s : State} (hs : Reached sm s) {i : Nat} {l : List HTree} {ts : List TokenTree}
    (ha : s.vars[i]? = some (.owned l)) (hv : VarHolds s i (.owned ts)) {n : Nat} (hn : streamNesting ts ≤ n)
    (loc alternate : Bool) {σ : Type} (w : Writer σ) (x : σ) :
    (debugIterH loc alternate n l).run σ w x s.heap = .ok ((debugStreamTo loc alternate ts).run σ w x, s.heap) := by
  obtain ⟨r, h1, h2⟩ := hv
  rw [ha] at h1
  cases h1
  cases h2 with
  | owned h3 => exact debugIterH_as (reached_counted hs) h3 hn σ w x

/-- **C109.** Into a `String`, the text is that of the value. -/
theorem C109_text {sm : SourceMap} {s : State} (hs : Reached sm s) {i : Nat} {a : Addr} {ts : List TokenTree}
    (ha : s.vars[i]? = some (.stream a)) (hv : VarHolds s i (.stream ts)) {n : Nat} (hn : streamNesting ts ≤ n)
    (loc alternate : Bool) (x : List Char) :
    (displayH n a).run _ stringWriter x s.heap = .ok ((x ++ display ts, true), s.heap) ∧
    (debugStreamH loc alternate n a).run _ stringWriter x s.heap =
      .ok ((x ++ debugStream loc alternate ts, true), s.heap) := by
  obtain ⟨h1, h2⟩ := C109_stream hs ha hv hn loc alternate stringWriter x
  rw [h1, h2, C105_string ((C105_display {}).1 ts), C105_string ((C105_debug loc alternate).1 ts), (C81_options {}).1 ts]
  exact ⟨rfl, rfl⟩

/-- **C109.** Printing recurses exactly as deep as the groups are nested, unless the writer fails before. -/
theorem C109_depth {sm : SourceMap} {s : State} (hs : Reached sm s) {i : Nat} {a : Addr} {ts : List TokenTree}
    (ha : s.vars[i]? = some (.stream a)) (hv : VarHolds s i (.stream ts)) (n : Nat)
    (loc alternate : Bool) {σ : Type} {w : Writer σ} (hw : NeverFails w) (x : σ) :
    ((displayH n a).run σ w x s.heap = .diverge ↔ n < streamNesting ts) ∧
    ((debugStreamH loc alternate n a).run σ w x s.heap = .diverge ↔ n < streamNesting ts) := by
  by_cases hn : n < streamNesting ts
  · obtain ⟨r, h1, h2⟩ := hv
    rw [ha] at h1
    cases h1
    cases h2 with
    | stream hg h3 =>
      exact ⟨⟨fun _ => hn, fun _ => displayH_deep hg h3 hn σ w hw x⟩,
        ⟨fun _ => hn, fun _ => debugStreamH_deep (reached_counted hs) hg h3 hn σ w hw x⟩⟩
  · obtain ⟨h1, h2⟩ := C109_stream hs ha hv (Nat.le_of_not_lt hn) loc alternate w x
    rw [h1, h2]
    exact ⟨⟨(fun h => by cases h), fun h => absurd h hn⟩, ⟨(fun h => by cases h), fun h => absurd h hn⟩⟩

/-- **C109.** Every variable with a stream, a tree or an iterator has a value that it is printed as: there is nothing in a
reachable state that printing could not follow. -/
theorem C109_always {sm : SourceMap} {s : State} (hs : Reached sm s) (i : Nat) :
    (∀ a, s.vars[i]? = some (.stream a) → ∃ ts, VarHolds s i (.stream ts)) ∧
    (∀ t, s.vars[i]? = some (.tree t) → ∃ t', VarHolds s i (.tree t')) ∧
    (∀ l, s.vars[i]? = some (.owned l) → ∃ ts, VarHolds s i (.owned ts)) := by
  obtain ⟨v, hR, -⟩ := reached_rel hs
  refine ⟨fun a h => ?_, fun t h => ?_, fun l h => ?_⟩ <;> obtain ⟨w, hw, hh⟩ := hR.var h
  · cases hh with | stream h1 h2 => exact ⟨_, _, h, .stream h1 h2⟩
  · cases hh with | tree h1 => exact ⟨_, _, h, .tree h1⟩
  · cases hh with | owned h1 => exact ⟨_, _, h, .owned h1⟩

end

/-! ### Concrete cases -/

section
attribute [local instance] sampleTables sampleTables_lawful

/-- `a(b)` is parsed, cloned, and the clone is iterated for one token. -/
private def heapPrintEx : List Act :=
  [.parse ['a', '(', 'b', ')'], .op (.cloneStream 0), .op (.intoOwned 1), .op (.next 2), .op (.next 2)]

private def heapPrintState : State :=
  ⟨[some ⟨2, [.ident ['b'] false ⟨3, 4⟩]⟩, some ⟨1, [.ident ['a'] false ⟨1, 2⟩, .group .parenthesis 0 ⟨2, 5⟩]⟩],
    [.stream 1, .dead, .owned [], .tree (.ident ['a'] false ⟨1, 2⟩), .tree (.group .parenthesis 0 ⟨2, 5⟩)]⟩

private theorem heapPrintReached :
    Reached ⟨[⟨[], ⟨0, 0⟩, [0], []⟩, ⟨['a', '(', 'b', ')'], ⟨1, 5⟩, [0], []⟩]⟩ heapPrintState :=
  ⟨heapPrintEx, by decide +kernel⟩

private def heapPrintStream : List TokenTree :=
  [.ident ['a'] false ⟨1, 2⟩, .group .parenthesis [.ident ['b'] false ⟨3, 4⟩] ⟨2, 5⟩]

private theorem heapPrintHolds : VarHolds heapPrintState 0 (.stream heapPrintStream) :=
  ⟨_, rfl, .stream rfl (.ident (.group rfl (.ident .nil) .nil))⟩

/-- C109_stream, C109_text: the parsed stream; the depth is enough. -/
example : (displayH 1 1).run _ stringWriter ['>'] heapPrintState.heap =
    .ok (('>' :: 'a' :: ' ' :: '(' :: 'b' :: [')'], true), heapPrintState.heap) := by
  have := (C109_text heapPrintReached (i := 0) rfl heapPrintHolds (n := 1) (by decide +kernel) true false ['>']).1
  rw [this]
  decide +kernel

/-- C109_stream: a writer that fails at the fourth piece, in the middle of the stream: the heap is restored. -/
example : ((debugStreamH true false 1 1).run _ (countWriter 3) 0 heapPrintState.heap) =
    .ok ((4, false), heapPrintState.heap) := by decide +kernel

/-- C109_tree: the group that came out of the iterator. -/
example : VarHolds heapPrintState 4 (.tree (.group .parenthesis [.ident ['b'] false ⟨3, 4⟩] ⟨2, 5⟩)) ∧
    treeNesting (.group .parenthesis [.ident ['b'] false ⟨3, 4⟩] ⟨2, 5⟩) ≤ 1 :=
  ⟨⟨_, rfl, .tree (.group rfl (.ident .nil) .nil)⟩, by decide +kernel⟩

/-- C109_iter: the iterator, which is at its end. -/
example : VarHolds heapPrintState 2 (.owned []) := ⟨_, rfl, .owned .nil⟩

/-- C109_depth: with no recursion at all, the parsed stream cannot be printed. -/
example : NeverFails stringWriter ∧ 0 < streamNesting heapPrintStream ∧
    (displayH 0 1).run _ stringWriter [] heapPrintState.heap = .diverge :=
  ⟨fun _ _ => rfl, by decide +kernel, by decide +kernel⟩

end

end PM2.Props
