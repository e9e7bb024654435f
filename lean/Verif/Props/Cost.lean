import Verif.Proof.Cost7
import Verif.Proof.Size
import Verif.Proof.NoSpan
import Verif.Proof.Release
import Verif.Proof.Context
import Verif.Props.RoundTrip
import Verif.Spec.Decide
/-! # C98, C99, C101: parsing takes linear time, and what it returns and what is printed has linear size -/

set_option linter.unusedSectionVars false

namespace PM2

namespace T
instance : PosTotal UInt32 := ⟨fun o n e => by simp [Pos.add]⟩
end T

namespace Props
open Spec

section
variable {ο : Type} [Pos ο] [T.PosTotal ο] [UnicodeTables] [LawfulUnicode]

/-! ## C98 -/

/-- Counted step by step, parsing a text of `n` bytes as a stream takes at most `215 n + 132` steps, also if the text is
rejected. The positions are those of a build with overflow checks (`Nat`), without them (`UInt32`), or without
`span_locations` (`Unit`). -/
theorem C98_stream (src : List Char) (off : ο) :
    (T.fromStrAt src off).val = fromStrAt src off ∧ (T.fromStrAt src off).cost ≤ 215 * strLen src + 132 :=
  ⟨T.fromStrAt_val src off, T.fromStrAt_cost src off⟩

/-- Parsing a text of `n` bytes as a literal takes at most `32 n + 67` steps. -/
theorem C98_literal (src : List Char) (off : ο) :
    (T.literalFromStrAt src off).val = literalFromStrAt src off ∧
    (T.literalFromStrAt src off).cost ≤ 32 * strLen src + 67 :=
  ⟨T.literalFromStrAt_val src off, T.literalFromStrAt_cost src off⟩

end

/-! ## C99 -/

/-- The stream has at most two trees per byte, six bytes of text per byte, and a level of groups for every two bytes. -/
def LinearSize (src : List Char) (ts : List TokenTree) : Prop :=
  treesCount ts ≤ 2 * strLen src ∧ treesBytes ts ≤ 6 * strLen src ∧ 2 * treesDepth ts ≤ strLen src

section
variable [UnicodeTables] [LawfulUnicode]

theorem LinearSize.mapSpan {src : List Char} {ts : List TokenTree} (f : Span → Span) (h : LinearSize src ts) :
    LinearSize src (Spec.mapSpan f ts) := by
  unfold LinearSize at h ⊢
  rw [treesCount_mapSpan, treesBytes_mapSpan, treesDepth_mapSpan]
  exact h

/-- With `span_locations`. -/
theorem C99_size {sm : SourceMap} {texts : List (List Char)} (h : History sm texts) {src : List Char} (hr : Room texts src)
    {ts : List TokenTree} (hp : (TokenStream.fromStr sm src).2 = .ok ts) : LinearSize src ts := by
  obtain ⟨k, -, e⟩ := fromStr_run h hr
  rw [e] at hp
  exact run_small hp

/-- Without `span_locations`. -/
theorem C99_bare {src : List Char} {ts : List TokenTree} (hp : NoSpan.fromStr src = .ok ts) : LinearSize src ts := by
  rw [NoSpan.fromStr_eq 0] at hp
  cases hr : P.run 0 ((P.stripBom src).length + 1) ⟨P.stripBom src, [], []⟩ with
  | ok ts' =>
    rw [hr] at hp
    cases hp
    exact LinearSize.mapSpan _ (run_small hr)
  | _ => rw [hr] at hp; cases hp

/-- With `span_locations` and without overflow checks. -/
theorem C99_wrap {src : List Char} {off : Nat} {ts : List TokenTree} (hp : fromStrAt src (UInt32.ofNat off) = .ok ts) :
    LinearSize src ts := by
  rw [fromStrAt_wrap] at hp
  cases hr : P.run (off + src.length) ((P.stripBom src).length + 1) ⟨P.stripBom src, [], []⟩ with
  | ok ts' =>
    rw [hr] at hp
    cases hp
    exact LinearSize.mapSpan _ (run_small hr)
  | _ => rw [hr] at hp; cases hp

end

/-! ## C101 -/

mutual
theorem displayTree_size : ∀ t : TokenTree, strLen (displayTree t) + 1 ≤ treeBytes t + 5 * treeCount t
  | .group d ts s => by
    have h := displayLoop_size ts true false
    unfold displayTree treeBytes treeCount
    simp only [strLen_append]
    have h1 := delims_size d ts.isEmpty
    omega
  | .ident sym raw s => by
    unfold displayTree treeBytes treeCount displayIdent
    rw [sum_utf8, strLen_append]
    have h1 : strLen (if raw then ['r', '#'] else []) ≤ 2 := by cases raw <;> decide
    omega
  | .punct ch sp s => by
    unfold displayTree treeBytes treeCount
    have := Char.utf8Size_le_four ch
    simp
    omega
  | .literal repr s => by
    unfold displayTree treeBytes treeCount
    rw [sum_utf8]
    omega
theorem displayLoop_size : ∀ (ts : List TokenTree) (first joint : Bool),
    strLen (displayLoop ts first joint) ≤ treesBytes ts + 5 * treesCount ts
  | [], _, _ => by simp [displayLoop, treesBytes, treesCount]
  | t :: ts, first, joint => by
    have h1 := displayTree_size t
    have h2 := displayLoop_size ts false (jointAfter t)
    unfold displayLoop treesBytes treesCount
    simp only [strLen_append]
    have h3 := sep_size first joint
    omega
end

/-- **C101.** The text of a stream has at most the bytes of its identifiers and literals and five more for each tree. -/
theorem C101_display (ts : List TokenTree) : strLen (display ts) ≤ treesBytes ts + 5 * treesCount ts :=
  displayLoop_size ts true false

section
variable [UnicodeTables] [LawfulUnicode]

/-- **C101**, of parsed streams: printing what was parsed makes a text of at most six times the length. -/
theorem C101_parsed {sm : SourceMap} {texts : List (List Char)} (h : History sm texts) {src : List Char}
    (hr : Room texts src) {ts : List TokenTree} (hp : (TokenStream.fromStr sm src).2 = .ok ts) :
    strLen (display ts) ≤ 6 * strLen src := by
  obtain ⟨k, -, e⟩ := fromStr_run h hr
  rw [e] at hp
  exact run_printed hp

/-- **C101**, without `span_locations`. -/
theorem C101_bare {src : List Char} {ts : List TokenTree} (hp : NoSpan.fromStr src = .ok ts) :
    strLen (display ts) ≤ 6 * strLen src := by
  rw [NoSpan.fromStr_eq 0] at hp
  cases hr : P.run 0 ((P.stripBom src).length + 1) ⟨P.stripBom src, [], []⟩ with
  | ok ts' =>
    rw [hr] at hp
    cases hp
    rw [show display (erase ts') = display ts' from displayLoop_mapSpan _ ts' true false]
    exact run_printed hr
  | _ => rw [hr] at hp; cases hp

end

/-! ## Examples -/

section Examples
attribute [local instance] sampleTables

/-- Texts with tokens of every kind, and one that is rejected, and their steps. -/
example : (T.fromStrAt "f(1.5e3, 'a', r#\"x\"#) /* c */ // d\n".toList (0 : Nat)).cost = 262 := by decide +kernel
example : (T.fromStrAt "'a + 1".toList ()).cost = 148 := by decide +kernel
example : (T.fromStrAt "/* /* /* ".toList (0 : UInt32)).val = .err ⟨0, 0⟩ ∧
    (T.fromStrAt "/* /* /* ".toList (0 : UInt32)).cost = 39 := by decide +kernel

/-- An inner doc comment of three bytes has six trees, and a character that cannot be printed takes six bytes. -/
example : ∃ ts, NoSpan.fromStr "//!".toList = .ok ts ∧ treesCount ts = 2 * strLen "//!".toList ∧ 2 * treesDepth ts + 1 = strLen "//!".toList :=
  ⟨_, rfl, by decide +kernel, by decide +kernel⟩
example : ∃ ts, NoSpan.fromStr "/// \u007f".toList = .ok ts ∧ treesBytes ts = 12 := ⟨_, rfl, by decide +kernel⟩
example : ∃ ts, NoSpan.fromStr "((()))".toList = .ok ts ∧ 2 * treesDepth ts = strLen "((()))".toList := ⟨_, rfl, by decide +kernel⟩

/-- C101 -/
example : display [.group .brace [.ident ['a'] true ⟨0, 0⟩] ⟨0, 0⟩] = "{ r#a }".toList ∧
    treesBytes [.group .brace [.ident ['a'] true ⟨0, 0⟩] ⟨0, 0⟩] = 1 := by decide +kernel
example : ∃ ts, NoSpan.fromStr "///\u007f\u007f\u007f\u007f\u007f\u007f\u007f\u007f".toList = .ok ts ∧
    strLen (display ts) = 6 * 8 + 12 := ⟨_, rfl, by decide +kernel⟩

example : (T.literalFromStrAt "-1.5".toList ()).cost = 35 := by decide +kernel
end Examples

end Props
end PM2
