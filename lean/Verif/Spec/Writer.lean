import Verif.Model.Writer
/-!
# Specification: writing pieces of a text

What it means to write a text in pieces to a writer that can fail: the pieces are handed over in order, and the first error
ends it.
-/

namespace PM2.Spec

/-- Hand over the pieces in order, up to the first error. -/
def writeAll {σ : Type} (w : Writer σ) : List (List Char) → σ → σ × Bool
  | [], s => (s, true)
  | c :: cs, s => if (w s c).2 then writeAll w cs (w s c).1 else ((w s c).1, false)

/-- The printer writes this text, in pieces that do not depend on the writer. -/
def Writes (p : Printer) (text : List Char) : Prop :=
  ∃ cs : List (List Char), cs.flatten = text ∧ ∀ (σ : Type) (w : Writer σ) (s : σ), p.run σ w s = writeAll w cs s

/-- A writer that appends to a text: when it succeeds, the whole piece, when it fails, a part from its beginning. -/
structure Appends {σ : Type} (w : Writer σ) (text : σ → List Char) : Prop where
  ok : ∀ s c, (w s c).2 = true → text (w s c).1 = text s ++ c
  err : ∀ s c, (w s c).2 = false → ∃ p, p <+: c ∧ text (w s c).1 = text s ++ p

/-- `String`, which does not fail. -/
def stringWriter : Writer (List Char) := fun s c => (s ++ c, true)

/-- A buffer of `n` bytes, which refuses pieces for which there is no room. -/
def bufferWriter (n : Nat) : Writer (List Char) := fun s c =>
  if strLen s + strLen c ≤ n then (s ++ c, true) else (s, false)

/-- A writer that counts how often it is called, and fails when it is called for the time `n + 1`. -/
def countWriter (n : Nat) : Writer Nat := fun s _ => (s + 1, decide (s < n))

end PM2.Spec
