import Verif.Model.Unicode
/-!
# Tokens

Token trees of the fallback implementation. A `fallback::TokenStream` is an `RcVec<TokenTree>`
(src/fallback.rs:54-57); here it is the list of its trees. That sharing through `Rc` is
unobservable is proved separately for the heap model (`Verif/Model/Heap.lean`).
-/

namespace PM2

/-- src/fallback.rs:519-525 `Span` (with `span_locations`): character positions in the source map. -/
structure Span where
  lo : Nat
  hi : Nat
deriving Repr, DecidableEq

/-- src/fallback.rs:534-536 `Span::call_site`. -/
def Span.callSite : Span := ⟨0, 0⟩

/-- src/lib.rs:684-712 `Delimiter`. -/
inductive Delimiter where
  | parenthesis
  | brace
  | bracket
  | none
deriving Repr, DecidableEq

/-- src/lib.rs:827-836 `Spacing`. -/
inductive Spacing where
  | alone
  | joint
deriving Repr, DecidableEq

/-- src/lib.rs:577-587 `TokenTree`, with the fields of src/fallback.rs:718-723 `Group`,
796-801 `Ident`, 942-946 `Literal` and src/lib.rs:818-823 `Punct`. -/
inductive TokenTree where
  | group (delimiter : Delimiter) (stream : List TokenTree) (span : Span)
  | ident (sym : List Char) (raw : Bool) (span : Span)
  | punct (ch : Char) (spacing : Spacing) (span : Span)
  | literal (repr : List Char) (span : Span)
deriving Repr

/-- A token stream, as the list of its trees. -/
abbrev TokenStream := List TokenTree

/-- src/lib.rs:592-599 `TokenTree::span`. -/
def TokenTree.span : TokenTree → Span
  | .group _ _ s => s
  | .ident _ _ s => s
  | .punct _ _ s => s
  | .literal _ s => s

/-- src/lib.rs:606-613 `TokenTree::set_span`, with src/fallback.rs:754-756, 836-838, 1153-1155 and
src/lib.rs:880-882. -/
def TokenTree.setSpan : TokenTree → Span → TokenTree
  | .group d ts _, s => .group d ts s
  | .ident sym raw _, s => .ident sym raw s
  | .punct ch sp _, s => .punct ch sp s
  | .literal r _, s => .literal r s

/-- src/lib.rs:847-848: the characters accepted by `Punct::new`. -/
def isPunctCtorChar (ch : Char) : Bool :=
  ch == '!' || ch == '#' || ch == '$' || ch == '%' || ch == '&' || ch == '\'' || ch == '*' ||
  ch == '+' || ch == ',' || ch == '-' || ch == '.' || ch == '/' || ch == ':' || ch == ';' ||
  ch == '<' || ch == '=' || ch == '>' || ch == '?' || ch == '@' || ch == '^' || ch == '|' ||
  ch == '~'

/-- src/lib.rs:846-858 `Punct::new`: panics on a character outside the table. -/
def punctNew {ε : Type} (ch : Char) (spacing : Spacing) : Res ε TokenTree :=
  if isPunctCtorChar ch then .ok (.punct ch spacing Span.callSite) else .panic

/-- src/fallback.rs:726-732 `Group::new`. -/
def groupNew (d : Delimiter) (ts : TokenStream) : TokenTree := .group d ts Span.callSite

/-- src/fallback.rs:810-816 `Ident::new_unchecked`. -/
def identNewUnchecked (s : List Char) (span : Span) : TokenTree := .ident s false span

/-- src/fallback.rs:824-830 `Ident::new_raw_unchecked`. -/
def identNewRawUnchecked (s : List Char) (span : Span) : TokenTree := .ident s true span

/-- src/fallback.rs:965-970 `Literal::_new`. -/
def literalNew (repr : List Char) : TokenTree := .literal repr Span.callSite

end PM2
