import Verif.Model.Wrapper
/-!
# Conversions without the wrapper (src/fallback.rs)

With the feature `proc-macro`, but without `cfg(wrap_proc_macro)` (`procmacro2_semver_exempt` and no nightly
compiler, build.rs:109-117), every value of the crate is the fallback's. Streams are exchanged with the compiler
as text.
-/

namespace PM2.Wrap
variable [Compiler] [UnicodeTables]

/-- src/fallback.rs:96-99 `TokenStream::from_str_unchecked`: an error is a panic. -/
def fromStrUnchecked (sm : SourceMap) (src : List Char) : SourceMap × Out TokenStream :=
  match TokenStream.fromStr sm src with
  | (sm, .ok ts) => (sm, .ok ts)
  | (sm, .err _) => (sm, .panic)
  | (sm, .panic) => (sm, .panic)
  | (sm, .diverge) => (sm, .diverge)

/-- src/fallback.rs:255-260 `From<proc_macro::TokenStream> for TokenStream`. -/
def ofCompilerStream (sm : SourceMap) (cs : List CTree) : SourceMap × Out TokenStream :=
  fromStrUnchecked sm (Compiler.streamText cs)

omit [UnicodeTables] in
/-- src/fallback.rs:262-267 `From<TokenStream> for proc_macro::TokenStream`, with 1260-1262. -/
def intoCompilerStream (ts : TokenStream) : Out (List CTree) :=
  match Compiler.parseStream (display ts) with
  | .ok cs => .ok cs
  | .err _ => .panic
  | .panic => .panic

end PM2.Wrap
