import Verif.Spec.AutoTraits
/-!
# The types of the crate and their fields (src/marker.rs and all type definitions)

What decides the auto traits `Send`, `Sync`, `UnwindSafe` and `RefUnwindSafe` of the public types. Fields that are
`u32`, `char`, `bool`, `usize`, `String` or `Box<str>` are `plain`.
-/

namespace PM2.Auto

/-- The types of `proc_macro` that the wrapper holds. -/
inductive CompilerType
  | tokenStream | tokenTree | lexError | intoIter | span | group | ident | literal
deriving DecidableEq, Repr

/-- The structs and enums: public ones, then those of src/wrapper.rs (`w`), of src/fallback.rs (`f`) and others. -/
inductive TypeName
  | tokenStream | lexError | span | tokenTree | group | delimiter | punct | spacing | ident | literal
  | intoIter | delimSpan | lineColumn
  | wTokenStream | deferred | wLexError | wIter | wSpan | wGroup | wIdent | wLiteral
  | fTokenStream | fLexError | fIter | fSpan | fGroup | fIdent | fLiteral
  | delimSpanEnum | rcVec | rcVecIntoIter | marker
deriving DecidableEq, Repr

abbrev T := Ty TypeName CompilerType

/-- The fields of all variants. `wrap` is `cfg(wrap_proc_macro)`, which decides what `imp` is
(src/lib.rs:159-163). -/
def fieldsOf (wrap : Bool) : TypeName → List T
  /- src/lib.rs:211-214 -/
  | .tokenStream => [.named (if wrap then .wTokenStream else .fTokenStream), .named .marker]
  /- src/lib.rs:217-220 -/
  | .lexError => [.named (if wrap then .wLexError else .fLexError), .named .marker]
  /- src/lib.rs:390-393 -/
  | .span => [.named (if wrap then .wSpan else .fSpan), .named .marker]
  /- src/lib.rs:578-587 -/
  | .tokenTree => [.named .group, .named .ident, .named .punct, .named .literal]
  /- src/lib.rs:679-681 -/
  | .group => [.named (if wrap then .wGroup else .fGroup)]
  /- src/lib.rs:685-712 -/
  | .delimiter => []
  /- src/lib.rs:819-823 -/
  | .punct => [.plain, .named .spacing, .named .span]
  /- src/lib.rs:828-836 -/
  | .spacing => []
  /- src/lib.rs:968-971 -/
  | .ident => [.named (if wrap then .wIdent else .fIdent), .named .marker]
  /- src/lib.rs:1102-1105 -/
  | .literal => [.named (if wrap then .wLiteral else .fLiteral), .named .marker]
  /- src/lib.rs:1492-1495 -/
  | .intoIter => [.named (if wrap then .wIter else .fIter), .named .marker]
  /- src/extra.rs:82-85 -/
  | .delimSpan => [.named .delimSpanEnum, .named .marker]
  /- src/location.rs:8-15 -/
  | .lineColumn => [.plain, .plain]
  /- src/wrapper.rs:25-28 -/
  | .wTokenStream => [.named .deferred, .named .fTokenStream]
  /- src/wrapper.rs:35-38 -/
  | .deferred => [.foreign .tokenStream, .vec (.foreign .tokenTree)]
  /- src/wrapper.rs:40-47 -/
  | .wLexError => [.foreign .lexError, .named .fLexError]
  /- src/wrapper.rs:316-319 -/
  | .wIter => [.foreign .intoIter, .named .fIter]
  /- src/wrapper.rs:374-377 -/
  | .wSpan => [.foreign .span, .named .fSpan]
  /- src/wrapper.rs:562-565 -/
  | .wGroup => [.foreign .group, .named .fGroup]
  /- src/wrapper.rs:667-670 -/
  | .wIdent => [.foreign .ident, .named .fIdent]
  /- src/wrapper.rs:762-765 -/
  | .wLiteral => [.foreign .literal, .named .fLiteral]
  /- src/fallback.rs:55-57 -/
  | .fTokenStream => [.named .rcVec]
  /- src/fallback.rs:60-62 -/
  | .fLexError => [.named .fSpan]
  /- src/fallback.rs:314 -/
  | .fIter => [.named .rcVecIntoIter]
  /- src/fallback.rs:520-525 -/
  | .fSpan => [.plain, .plain]
  /- src/fallback.rs:719-723 -/
  | .fGroup => [.named .delimiter, .named .fTokenStream, .named .fSpan]
  /- src/fallback.rs:797-801 -/
  | .fIdent => [.plain, .named .fSpan, .plain]
  /- src/fallback.rs:943-946 -/
  | .fLiteral => [.plain, .named .fSpan]
  /- src/extra.rs:88-96 -/
  | .delimSpanEnum => if wrap then [.foreign .span, .foreign .span, .foreign .span, .named .fSpan] else [.named .fSpan]
  /- src/rcvec.rs:7-9, at `TokenTree` -/
  | .rcVec => [.rc (.vec (.named .tokenTree))]
  /- src/rcvec.rs:20-22, at `TokenTree` -/
  | .rcVecIntoIter => [.vecIntoIter (.named .tokenTree)]
  /- src/marker.rs:12 -/
  | .marker => [.phantom (.rc .plain)]

/-- The `impl`s of auto traits: src/marker.rs:16-17 and src/rcvec.rs:146. -/
def sourceOf (wrap : Bool) : Trait → TypeName → Source TypeName CompilerType
  | .unwindSafe, .marker => .explicit []
  | .refUnwindSafe, .marker => .explicit []
  | .refUnwindSafe, .rcVec => .explicit [(.refUnwindSafe, .named .tokenTree)]
  | _, n => .fields (fieldsOf wrap n)

/-- The crate, for given foreign types and version of the standard library. -/
def crateEnv (wrap : Bool) (foreign : Trait → CompilerType → Prop) (newRc : Bool) : Env TypeName CompilerType :=
  ⟨sourceOf wrap, foreign, newRc⟩

end PM2.Auto
