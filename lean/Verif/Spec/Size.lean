import Verif.Model.Token
/-! # The size of a token stream -/

namespace PM2.Spec

mutual
/-- The number of trees in a tree: itself, and for a group all in it. -/
def treeCount : TokenTree → Nat
  | .group _ ts _ => 1 + treesCount ts
  | _ => 1
/-- The number of trees in a stream, at all depths. -/
def treesCount : List TokenTree → Nat
  | [] => 0
  | t :: ts => treeCount t + treesCount ts
end

mutual
/-- The number of bytes of text in a tree: those of its identifiers and literals. -/
def treeBytes : TokenTree → Nat
  | .group _ ts _ => treesBytes ts
  | .ident sym _ _ => (sym.map Char.utf8Size).sum
  | .punct _ _ _ => 0
  | .literal repr _ => (repr.map Char.utf8Size).sum
/-- The number of bytes of text in a stream, at all depths. -/
def treesBytes : List TokenTree → Nat
  | [] => 0
  | t :: ts => treeBytes t + treesBytes ts
end

mutual
/-- How deep groups are nested in a tree. -/
def treeDepth : TokenTree → Nat
  | .group _ ts _ => 1 + treesDepth ts
  | _ => 0
/-- How deep groups are nested in a stream. -/
def treesDepth : List TokenTree → Nat
  | [] => 0
  | t :: ts => max (treeDepth t) (treesDepth ts)
end

end PM2.Spec
