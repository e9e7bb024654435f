import Verif.Model.Token
/-!
# Printing (src/fallback.rs:225-246, 759-784, 910-917, and `Display` of `Punct` and `Literal`)

`write!` into a `String` never fails, so printing is a pure function to text.
-/

namespace PM2

/-- src/fallback.rs:910-917 `Display for Ident`. -/
def displayIdent (sym : List Char) (raw : Bool) : List Char :=
  (if raw then ['r', '#'] else []) ++ sym

/-- src/fallback.rs:767-772: the opening text of a group. -/
def displayOpen : Delimiter → List Char
  | .parenthesis => ['(']
  | .brace => ['{', ' ']
  | .bracket => ['[']
  | .none => []

/-- src/fallback.rs:767-772: the closing text of a group. -/
def displayClose : Delimiter → List Char
  | .parenthesis => [')']
  | .brace => ['}']
  | .bracket => [']']
  | .none => []

/-- src/fallback.rs:229-242: the value of `joint` after printing a token. -/
def jointAfter : TokenTree → Bool
  | .punct _ spacing _ => spacing == .joint
  | _ => false

mutual

/-- Printing one token: src/fallback.rs:766-783 `Display for Group`, 910-917 `Display for Ident`,
1199-1203 `Display for Literal`, src/lib.rs:887-891 `Display for Punct`. -/
def displayTree : TokenTree → List Char
  | .group d ts _ =>
    displayOpen d ++ displayLoop ts true false ++
      (if d == .brace && !ts.isEmpty then [' '] else []) ++ displayClose d
  | .ident sym raw _ => displayIdent sym raw
  | .punct ch _ _ => [ch]
  | .literal repr _ => repr

/-- src/fallback.rs:225-246: the loop of `Display for TokenStream`. `first` is `i == 0`. -/
def displayLoop : List TokenTree → (first joint : Bool) → List Char
  | [], _, _ => []
  | tt :: ts, first, joint =>
    (if !first && !joint then [' '] else []) ++ displayTree tt ++
      displayLoop ts false (jointAfter tt)

end

/-- src/fallback.rs:225-246 `Display for TokenStream`. -/
def display (ts : TokenStream) : List Char := displayLoop ts true false

end PM2
