import Verif.Model.HeapPrint
/-!
# Specification: how deep groups are nested
-/

namespace PM2.Spec

mutual
/-- How deep groups are nested in a tree, itself included. -/
def treeNesting : TokenTree → Nat
  | .group _ ts _ => streamNesting ts + 1
  | _ => 0
/-- How deep groups are nested in a stream. -/
def streamNesting : List TokenTree → Nat
  | [] => 0
  | t :: ts => max (treeNesting t) (streamNesting ts)
end

/-- A writer that does not fail. -/
def NeverFails {σ : Type} (w : Writer σ) : Prop := ∀ s c, (w s c).2 = true

end PM2.Spec
