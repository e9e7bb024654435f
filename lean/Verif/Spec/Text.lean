import Verif.Model.SourceMap
/-! # Specification: positions in a text -/

namespace PM2.Spec

/-- Line and column reached after reading one more character. -/
def step (lc : LineColumn) (c : Char) : LineColumn :=
  if c = '\n' then ⟨lc.line + 1, 0⟩ else ⟨lc.line, lc.column + 1⟩

/-- Line (from 1) and column (from 0) of the position before the `p`-th character of `s`: a line
feed starts a new line, every other character moves one column. -/
def lineColumn (s : List Char) (p : Nat) : LineColumn := (s.take p).foldl step ⟨1, 0⟩

/-- Number of UTF-8 bytes before the `p`-th character. -/
def byteOffset (s : List Char) (p : Nat) : Nat := ((s.take p).map Char.utf8Size).sum

/-- The characters of `s` at positions `a ≤ i < b`. -/
def substring (s : List Char) (a b : Nat) : List Char := (s.drop a).take (b - a)

end PM2.Spec
