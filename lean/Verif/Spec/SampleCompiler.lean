import Verif.Model.Wrapper
/-!
# A compiler for concrete cases

A small compiler: spans are numbers, groups are a delimiter and the printed contents, and literals with a
minus sign are split when they enter a stream. Its parser knows two texts, and panics on a third.
-/

namespace PM2.Spec
open Wrap

@[reducible] def sampleTypes : CompilerTypes where
  Span := Nat
  Group := CDelimiter × List Char × Nat
  Ident := List Char × Nat
  Literal := List Char × Nat
  Error := List Char

section
attribute [local instance] sampleTypes

def sampleEnter : CTree → List CTree
  | .literal ('-' :: t, s) => [.punct '-' .alone s, .literal (t, s)]
  | t => [t]

def sampleText : CTree → List Char
  | .group (_, t, _) => '(' :: t ++ [')']
  | .punct ch _ _ => [ch]
  | .ident (t, _) => t
  | .literal (t, _) => t

@[reducible] def sampleCompiler : Compiler where
  toCompilerTypes := sampleTypes
  callSite := (7 : Nat)
  mixedSite := (8 : Nat)
  defSite := (9 : Nat)
  resolvedAt a _ := a
  locatedAt _ b := b
  join a _ := some a
  spanEq a b := Nat.beq a b
  byteRange a := (a, a)
  line _ := 1
  column a := a
  spanEnd a := a
  file _ := ['f']
  localFile _ := none
  sourceText _ := none
  groupNew d ts := (d, ts.flatMap sampleText, (7 : Nat))
  groupDelimiter g := g.1
  groupStream _ := []
  groupSpan g := g.2.2
  groupSpanOpen g := g.2.2
  groupSpanClose g := g.2.2
  groupSetSpan g s := (g.1, g.2.1, s)
  groupText g := g.2.1
  identNew t s := if t.isEmpty then none else some (t, s)
  identNewRaw t s := if t.isEmpty then none else some (t, s)
  identSpan i := i.2
  identSetSpan i s := (i.1, s)
  identText i := i.1
  literalNew t := (t, (7 : Nat))
  literalSpan l := l.2
  literalSetSpan l s := (l.1, s)
  literalSubspan l _ _ := some l.2
  literalText l := l.1
  parseLiteral t := if t = ['1'] then .ok (t, (9 : Nat)) else if t = ['2'] then .panic else .err t
  enter := sampleEnter
  parseStream t := if t = ['1'] then .ok [.literal (t, (9 : Nat))] else if t = ['2'] then .panic else .err t
  streamText ts := ts.flatMap (fun t => sampleText t ++ [' '])
  sizeHint ts := (ts.length, some ts.length)
  cfgSpan := true
  cfgSpanLocation := true
  cfgSpanFile := true
  cfgSourceText := true
  cfgByteCharacter := true
  cfgCString := true
  byteCharacter b := (litByteCharacter b, (7 : Nat))
  cString bs := ('c' :: natDec bs.length, (7 : Nat))
  errorText e := e
  streamDebug _ ts := '<' :: ts.flatMap sampleText ++ ['>']
  groupDebug _ g := '<' :: g.2.1 ++ ['>']
  identDebug _ i := '<' :: i.1 ++ ['>']
  literalDebug _ l := '<' :: l.1 ++ ['>']
  spanDebug _ s := '#' :: natDec s
  errorDebug _ e := '!' :: e

theorem sampleEnter_ne (t : CTree) : sampleEnter t ≠ [] := by
  unfold sampleEnter
  split <;> simp

end

end PM2.Spec
