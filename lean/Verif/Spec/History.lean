import Verif.Spec.Text
/-!
# Specification: histories of a thread's source map

The texts parsed on a thread since the last invalidation are laid out one after the other, starting
at position 1, with one unused position after each. `History sm texts` says that `sm` is the state of
the source map after some sequence of API calls, and that `texts` are the texts it should hold.
-/

namespace PM2.Spec

/-- Start position of the `i`-th text. -/
def base (texts : List (List Char)) (i : Nat) : Nat :=
  1 + ((texts.take i).map (fun t => t.length + 1)).sum

/-- The 32-bit position space has room for one more text. -/
def Room (texts : List (List Char)) (src : List Char) : Prop :=
  base texts texts.length + src.length < 2 ^ 32

instance (texts : List (List Char)) (src : List Char) : Decidable (Room texts src) :=
  inferInstanceAs (Decidable (_ < _))

section
variable [UnicodeTables]

/-- Every way of driving the source map of a thread: parsing token streams and literals, querying
spans (which fills caches), and invalidating. A parse for which there is no room panics and leaves
the map as it was. Texts of more than `u32::MAX` characters are excluded. -/
inductive History : SourceMap → List (List Char) → Prop
  | init : History SourceMap.init []
  | parse {sm texts} (src : List Char) : History sm texts → src.length < 2 ^ 32 →
      History (TokenStream.fromStr sm src).1 (if Room texts src then texts ++ [src] else texts)
  | literal {sm texts} (src : List Char) : History sm texts → src.length < 2 ^ 32 →
      History (Literal.fromStr sm src).1 (if Room texts src then texts ++ [src] else texts)
  | byteRange {sm texts sm' r} (s : Span) : History sm texts →
      s.byteRange (ε := Unit) sm = .ok (sm', r) → History sm' texts
  | sourceText {sm texts sm' r} (s : Span) : History sm texts →
      s.sourceText (ε := Unit) sm = .ok (sm', r) → History sm' texts
  | invalidate {sm texts} : History sm texts → History sm.invalidate []

end

/-- The span `s` lies in the `i`-th text, which is `t`. -/
structure InText (texts : List (List Char)) (i : Nat) (t : List Char) (s : Span) : Prop where
  text : texts[i]? = some t
  lo : base texts i ≤ s.lo
  le : s.lo ≤ s.hi
  hi : s.hi ≤ base texts i + t.length

end PM2.Spec
