import Verif.Proof.HeapApiState
import Verif.Props.HeapParse
import Verif.Props.Writer
import Verif.Props.Direct
/-!
# The API on the heap: calls
-/

namespace PM2
open Heap Spec HeapApi Wrap Spec.Direct

/-! ### Groups are not nested deeper than there are cells -/

theorem shows_chain {h : Heap} {l : List HTree} {ts : List TokenTree} (hs : Shows h l ts) :
    ∃ as : List Nat, as.length = streamNesting ts ∧ as.Nodup ∧ (∀ a ∈ as, a < h.length) ∧
      ∀ a ∈ as, ∃ c us, h.get a = some c ∧ Shows h c.vec us ∧ sizeOf us < sizeOf ts := by
  induction hs with
  | nil => exact ⟨[], rfl, .nil, by simp, by simp⟩
  | ident _ ih | punct _ ih | literal _ ih =>
    obtain ⟨as, h1, h2, h3, h4⟩ := ih
    refine ⟨as, by simpa [streamNesting, treeNesting] using h1, h2, h3, fun a ha => ?_⟩
    obtain ⟨c, us, g1, g2, g3⟩ := h4 a ha
    exact ⟨c, us, g1, g2, by simp; omega⟩
  | @group d a s c inner l ts hg hi hl ih1 ih2 =>
    simp only [streamNesting, treeNesting]
    by_cases e : streamNesting inner + 1 ≤ streamNesting ts
    · obtain ⟨as, h1, h2, h3, h4⟩ := ih2
      refine ⟨as, by rw [h1]; omega, h2, h3, fun a ha => ?_⟩
      obtain ⟨c, us, g1, g2, g3⟩ := h4 a ha
      exact ⟨c, us, g1, g2, by simp; omega⟩
    · obtain ⟨as, h1, h2, h3, h4⟩ := ih1
      refine ⟨a :: as, by simp only [List.length_cons, h1]; omega, List.nodup_cons.mpr ⟨fun ha => ?_, h2⟩, ?_, ?_⟩
      · obtain ⟨c', us, g1, g2, g3⟩ := h4 a ha
        rw [hg] at g1
        cases g1
        rw [hi.unique g2] at g3
        omega
      · intro b hb
        cases hb with
        | head => exact get_length hg
        | tail _ hb => exact h3 b hb
      · intro b hb
        cases hb with
        | head => exact ⟨c, inner, hg, hi, by simp; omega⟩
        | tail _ hb =>
          obtain ⟨c', us, g1, g2, g3⟩ := h4 b hb
          exact ⟨c', us, g1, g2, by simp; omega⟩

theorem nesting_cells {h : Heap} {l : List HTree} {ts : List TokenTree} (hs : Shows h l ts) : streamNesting ts ≤ h.length := by
  obtain ⟨as, h1, h2, h3, -⟩ := shows_chain hs
  have := h2.length_le_of_subset (l₂ := List.range h.length) (fun a ha => List.mem_range.mpr (h3 a ha))
  simpa [h1] using this

theorem nesting_cells_tree {h : Heap} {t : HTree} {t' : TokenTree} (hs : Shows h [t] [t']) : treeNesting t' ≤ h.length := by
  have := nesting_cells hs
  simp only [streamNesting] at this
  omega

section
variable [Compiler]

/-! ### Reading variables -/

theorem RelA.at {s : HState} {f : FState} (hR : RelA s f) (i : Nat) :
    (s.vars[i]? = none ∧ f.vars[i]? = none) ∨
    ∃ v w, s.vars[i]? = some v ∧ f.vars[i]? = some w ∧ hvShape v = fvShape w ∧ Spec.Holds s.heap v.root (fval w) := by
  have h := congrArg (fun l => l[i]?) hR.shape
  simp only [List.getElem?_map] at h
  cases e1 : s.vars[i]? with
  | none =>
    rw [e1] at h
    cases e2 : f.vars[i]? with
    | none => exact .inl ⟨rfl, rfl⟩
    | some w => rw [e2] at h; cases h
  | some v =>
    rw [e1] at h
    cases e2 : f.vars[i]? with
    | none => rw [e2] at h; cases h
    | some w =>
      rw [e2] at h
      refine .inr ⟨v, w, rfl, rfl, by simpa using h, hR.rel.holds i _ _ ?_ ?_⟩
      · simp [HState.state, e1]
      · simp [e2]

variable {s : HState} {f : FState} (hR : RelA s f) (i : Nat)
include hR

theorem RelA.readSpan : (∃ x, s.read HValue.span? i = .ok x ∧ f.read FValue.span? i = .ok x) ∨
    (s.read HValue.span? i = .ill ∧ f.read FValue.span? i = .ill) := by
  rcases RelA.at hR i with ⟨h1, h2⟩ | ⟨v, w, h1, h2, h3, h4⟩
  · right
    simp only [HState.read, FState.read, h1, h2]
    trivial
  simp only [HState.read, FState.read, h1, h2, Out.typed]
  cases v <;> cases w <;> simp only [hvShape, fvShape, reduceCtorEq] at h3 <;> first
    | exact .inr ⟨rfl, rfl⟩
    | skip
  simp only [Shape.span.injEq] at h3
  subst h3
  exact .inl ⟨_, rfl, rfl⟩

theorem RelA.readError : (∃ x, s.read HValue.error? i = .ok x ∧ f.read FValue.error? i = .ok x) ∨
    (s.read HValue.error? i = .ill ∧ f.read FValue.error? i = .ill) := by
  rcases RelA.at hR i with ⟨h1, h2⟩ | ⟨v, w, h1, h2, h3, h4⟩
  · right
    simp only [HState.read, FState.read, h1, h2]
    trivial
  simp only [HState.read, FState.read, h1, h2, Out.typed]
  cases v <;> cases w <;> simp only [hvShape, fvShape, reduceCtorEq] at h3 <;> first
    | exact .inr ⟨rfl, rfl⟩
    | skip
  simp only [Shape.error.injEq] at h3
  subst h3
  exact .inl ⟨_, rfl, rfl⟩

theorem RelA.readDelim : (∃ x d ts, s.read HValue.delim? i = .ok x ∧ f.read FValue.delim? i = .ok (d, ts, x)) ∨
    (s.read HValue.delim? i = .ill ∧ f.read FValue.delim? i = .ill) := by
  rcases RelA.at hR i with ⟨h1, h2⟩ | ⟨v, w, h1, h2, h3, h4⟩
  · right
    simp only [HState.read, FState.read, h1, h2]
    trivial
  simp only [HState.read, FState.read, h1, h2, Out.typed]
  cases v <;> cases w <;> simp only [hvShape, fvShape, reduceCtorEq] at h3 <;> first
    | exact .inr ⟨rfl, rfl⟩
    | skip
  simp only [Shape.delim.injEq] at h3
  subst h3
  exact .inl ⟨_, _, _, rfl, rfl⟩

theorem RelA.readStream : (∃ a c ts, s.read HValue.stream? i = .ok a ∧ f.read FValue.stream? i = .ok ts ∧
      s.heap.get a = some c ∧ Shows s.heap c.vec ts ∧ f.vars[i]? = some (.stream ts)) ∨
    (s.read HValue.stream? i = .ill ∧ f.read FValue.stream? i = .ill) := by
  rcases RelA.at hR i with ⟨h1, h2⟩ | ⟨v, w, h1, h2, h3, h4⟩
  · right
    simp only [HState.read, FState.read, h1, h2]
    trivial
  · simp only [HState.read, FState.read, h1, h2, Out.typed]
    cases v <;> cases w <;> simp only [hvShape, fvShape, reduceCtorEq] at h3 <;> first
      | exact .inr ⟨rfl, rfl⟩
      | skip
    cases h4 with
    | stream g1 g2 => exact .inl ⟨_, _, _, rfl, rfl, g1, g2, rfl⟩

theorem RelA.readTree : (∃ t t', s.read HValue.tree? i = .ok t ∧ f.read FValue.tree? i = .ok t' ∧
      Shows s.heap [t] [t'] ∧ f.vars[i]? = some (.tree t')) ∨
    (s.read HValue.tree? i = .ill ∧ f.read FValue.tree? i = .ill) := by
  rcases RelA.at hR i with ⟨h1, h2⟩ | ⟨v, w, h1, h2, h3, h4⟩
  · right
    simp only [HState.read, FState.read, h1, h2]
    trivial
  · simp only [HState.read, FState.read, h1, h2, Out.typed]
    cases v <;> cases w <;> simp only [hvShape, fvShape, reduceCtorEq] at h3 <;> first
      | exact .inr ⟨rfl, rfl⟩
      | skip
    cases h4 with
    | tree g1 => exact .inl ⟨_, _, rfl, rfl, g1, rfl⟩

theorem RelA.readIter : (∃ l ts, s.read HValue.iter? i = .ok l ∧ f.read FValue.iter? i = .ok ts ∧
      Shows s.heap l ts ∧ f.vars[i]? = some (.iter ts)) ∨
    (s.read HValue.iter? i = .ill ∧ f.read FValue.iter? i = .ill) := by
  rcases RelA.at hR i with ⟨h1, h2⟩ | ⟨v, w, h1, h2, h3, h4⟩
  · right
    simp only [HState.read, FState.read, h1, h2]
    trivial
  · simp only [HState.read, FState.read, h1, h2, Out.typed]
    cases v <;> cases w <;> simp only [hvShape, fvShape, reduceCtorEq] at h3 <;> first
      | exact .inr ⟨rfl, rfl⟩
      | skip
    cases h4 with
    | owned g1 => exact .inl ⟨_, _, rfl, rfl, g1, rfl⟩

theorem RelA.readGroup : (∃ d ts x, s.read HValue.group? i = .ok (d, x) ∧ f.read FValue.group? i = .ok (d, ts, x) ∧
      f.vars[i]? = some (.tree (.group d ts x))) ∨
    (s.read HValue.group? i = .ill ∧ f.read FValue.group? i = .ill) := by
  rcases RelA.at hR i with ⟨h1, h2⟩ | ⟨v, w, h1, h2, h3, h4⟩
  · right
    simp only [HState.read, FState.read, h1, h2]
    trivial
  · simp only [HState.read, FState.read, h1, h2, Out.typed]
    cases v <;> cases w <;> simp only [hvShape, fvShape, reduceCtorEq] at h3 <;> first
      | exact .inr ⟨rfl, rfl⟩
      | skip
    rename_i t t'
    cases t <;> cases t' <;> simp [hshape, tshape] at h3 <;> first
      | exact .inr ⟨rfl, rfl⟩
      | skip
    obtain ⟨rfl, rfl⟩ := h3
    exact .inl ⟨_, _, _, rfl, rfl, rfl⟩

theorem RelA.readIdent : (∃ sym raw x, s.read HValue.ident? i = .ok (sym, raw, x) ∧ f.read FValue.ident? i = .ok ⟨sym, raw⟩ ∧
      f.read FValue.identSpan? i = .ok (sym, raw, x)) ∨
    (s.read HValue.ident? i = .ill ∧ f.read FValue.ident? i = .ill ∧ f.read FValue.identSpan? i = .ill) := by
  rcases RelA.at hR i with ⟨h1, h2⟩ | ⟨v, w, h1, h2, h3, h4⟩
  · right
    simp only [HState.read, FState.read, h1, h2]
    trivial
  · simp only [HState.read, FState.read, h1, h2, Out.typed]
    cases v <;> cases w <;> simp only [hvShape, fvShape, reduceCtorEq] at h3 <;> first
      | exact .inr ⟨rfl, rfl, rfl⟩
      | skip
    rename_i t t'
    cases t <;> cases t' <;> simp [hshape, tshape] at h3 <;> first
      | exact .inr ⟨rfl, rfl, rfl⟩
      | skip
    obtain ⟨rfl, rfl, rfl⟩ := h3
    exact .inl ⟨_, _, _, rfl, rfl, rfl⟩

theorem RelA.readPunct : (∃ x, s.read HValue.punct? i = .ok x ∧ f.read FValue.punct? i = .ok x) ∨
    (s.read HValue.punct? i = .ill ∧ f.read FValue.punct? i = .ill) := by
  rcases RelA.at hR i with ⟨h1, h2⟩ | ⟨v, w, h1, h2, h3, h4⟩
  · right
    simp only [HState.read, FState.read, h1, h2]
    trivial
  · simp only [HState.read, FState.read, h1, h2, Out.typed]
    cases v <;> cases w <;> simp only [hvShape, fvShape, reduceCtorEq] at h3 <;> first
      | exact .inr ⟨rfl, rfl⟩
      | skip
    rename_i t t'
    cases t <;> cases t' <;> simp [hshape, tshape] at h3 <;> first
      | exact .inr ⟨rfl, rfl⟩
      | skip
    obtain ⟨rfl, rfl, rfl⟩ := h3
    exact .inl ⟨_, rfl, rfl⟩

theorem RelA.readLiteral : (∃ r x, s.read HValue.literal? i = .ok (r, x) ∧ f.read FValue.repr? i = .ok r ∧
      f.read FValue.literal? i = .ok x) ∨
    (s.read HValue.literal? i = .ill ∧ f.read FValue.repr? i = .ill ∧ f.read FValue.literal? i = .ill) := by
  rcases RelA.at hR i with ⟨h1, h2⟩ | ⟨v, w, h1, h2, h3, h4⟩
  · right
    simp only [HState.read, FState.read, h1, h2]
    trivial
  · simp only [HState.read, FState.read, h1, h2, Out.typed]
    cases v <;> cases w <;> simp only [hvShape, fvShape, reduceCtorEq] at h3 <;> first
      | exact .inr ⟨rfl, rfl, rfl⟩
      | skip
    rename_i t t'
    cases t <;> cases t' <;> simp [hshape, tshape] at h3 <;> first
      | exact .inr ⟨rfl, rfl, rfl⟩
      | skip
    obtain ⟨rfl, rfl⟩ := h3
    exact .inl ⟨_, _, rfl, rfl, rfl⟩

omit i

theorem RelA.readStreams : ∀ (is : List Nat), (∃ as us, s.reads HValue.stream? is = .ok as ∧ f.reads FValue.stream? is = .ok us ∧
      At streamKind (f.vars.map fval) is us ∧ Tokens f.vars is) ∨
    (s.reads HValue.stream? is = .ill ∧ f.reads FValue.stream? is = .ill)
  | [] => .inl ⟨[], [], rfl, rfl, rfl, by intro i h; cases h⟩
  | i :: is => by
    rcases hR.readStream i with ⟨a, c, ts, h1, h2, -, -, h5⟩ | ⟨h1, h2⟩
    · rcases RelA.readStreams is with ⟨as, us, g1, g2, g3, g4⟩ | ⟨g1, g2⟩
      · refine .inl ⟨a :: as, ts :: us, ?_, ?_, At.cons.mpr ⟨?_, g3⟩, ?_⟩
        · simp only [HState.reads, h1, g1]; rfl
        · simp only [FState.reads, h2, g2]; rfl
        · simp [h5]; rfl
        · intro j hj
          cases hj with
          | head => exact ⟨_, h5, by simp [fval]⟩
          | tail _ hj => exact g4 j hj
      · exact .inr ⟨by simp only [HState.reads, h1, g1]; rfl, by simp only [FState.reads, h2, g2]; rfl⟩
    · exact .inr ⟨by simp only [HState.reads, h1]; rfl, by simp only [FState.reads, h2]; rfl⟩

theorem RelA.readTrees : ∀ (is : List Nat), (∃ as us, s.reads HValue.tree? is = .ok as ∧ f.reads FValue.tree? is = .ok us ∧
      At treeKind (f.vars.map fval) is us ∧ Tokens f.vars is) ∨
    (s.reads HValue.tree? is = .ill ∧ f.reads FValue.tree? is = .ill)
  | [] => .inl ⟨[], [], rfl, rfl, rfl, by intro i h; cases h⟩
  | i :: is => by
    rcases hR.readTree i with ⟨a, ts, h1, h2, -, h5⟩ | ⟨h1, h2⟩
    · rcases RelA.readTrees is with ⟨as, us, g1, g2, g3, g4⟩ | ⟨g1, g2⟩
      · refine .inl ⟨a :: as, ts :: us, ?_, ?_, At.cons.mpr ⟨?_, g3⟩, ?_⟩
        · simp only [HState.reads, h1, g1]; rfl
        · simp only [FState.reads, h2, g2]; rfl
        · simp [h5]; rfl
        · intro j hj
          cases hj with
          | head => exact ⟨_, h5, by simp [fval]⟩
          | tail _ hj => exact g4 j hj
      · exact .inr ⟨by simp only [HState.reads, h1, g1]; rfl, by simp only [FState.reads, h2, g2]; rfl⟩
    · exact .inr ⟨by simp only [HState.reads, h1]; rfl, by simp only [FState.reads, h2]; rfl⟩

end

end PM2
