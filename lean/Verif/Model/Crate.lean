import Verif.Model.Build
/-!
# Conditional compilation (the `cfg`s of src/*.rs, src/probe.rs and src/probe/*.rs)

Which definitions of the crate are compiled, given the `cfg`s, and what each of them refers to. Listed are the
definitions and imports that have a `cfg`, or that refer to one that has, or that call one of the methods of
`proc_macro` whose presence depends on the compiler (`Method`). What is left out refers to nothing that is conditional.
A `cfg` on a part of a definition is a condition on what that part refers to; where two parts exclude each other, they
are `choices`. Fields, variants and methods are definitions like others; types are not checked. `cfg_attr(docsrs, …)`
is left out.
-/

namespace PM2.Crate
open Build

/-- The files. `lib` also stands for what is in the root module, `wrapper` for `mod imp`. -/
inductive File where
  | lib | extra | wrapper | fallback | parse | detection | location | num | escaper
  | probe (f : Probe)
deriving DecidableEq, Repr

/-- The methods of `proc_macro` that not every compiler has. -/
inductive Method where
  | byteRange | start | «end» | line | column | file | localFile | join | subspan
  | sourceText | byteCharacter | cString | isAvailable | defSite | spanEq
deriving DecidableEq, Repr

/-- Unstable features of the compiler. -/
inductive Feature where
  | procMacroSpan | procMacroDefSite
deriving DecidableEq, Repr

/-- Names of definitions and imports. -/
inductive Ident where
  /- crates and modules -/
  | procMacro | imp | probeModule (f : Probe) | cmp | panic | vecMacro | threadLocal
  /- types and traits -/
  | lineColumn | range | pathBuf | toOwned | vec | btreeMap | refCell | ordering | fromStr | mixedUnit | escapeError
  | nonZeroChar | conversionErrorKind | fileInfo | sourceMapType | fromStr2 | delimSpanCompiler
  /- fields -/
  | lo | hi | off
  /- functions and statics -/
  | sourceMap | getCursor | linesOffsets | invalidate | callSite | defSite | isCallSite | byteRange | start | «end» | line
  | column | file | localFile | join | eq | sourceText | firstByte | lastByte | debugSpan | spanDebug | identDebug | subspan
  | unwrap | unstable | fromCompiler | intoCompiler | streamChecked | streamUnchecked | literalChecked | valid | checked
  | unchecked | strValue | cstrValue | byteStrValue | getRaw | unescape | delimSpanNew | delimSpanJoin | delimSpanOpen
  | delimSpanClose | initialize | insideProcMacro | forceFallback | unforceFallback | force | unforce | mismatch
  | byteCharacter | cString | pushNegative | advance | tokenStream | lexError | docComment | spanOpen
  | spanClose | punctDebug | mixedSite
deriving DecidableEq, Repr

/-- The conditions of `#[cfg(…)]`. -/
inductive Cond where
  | always
  | cfg (c : Cfg)
  /-- `feature = "proc-macro"` -/
  | procMacro
  | not (c : Cond)
  | all (a b : Cond)
deriving DecidableEq, Repr

/-- What is looked at when the crate is compiled. -/
structure Env where
  cfg : Cfg → Bool
  procMacro : Bool

/-- Whether a condition holds. -/
def Cond.eval (e : Env) : Cond → Bool
  | always => true
  | cfg c => e.cfg c
  | procMacro => e.procMacro
  | not c => !c.eval e
  | all a b => a.eval e && b.eval e

/-- What a definition refers to: another one, one of `imp` (src/lib.rs:159-163), or a method of `proc_macro`. -/
inductive Need where
  | item (file : File) (name : Ident)
  | imp (name : Ident)
  | method (m : Method)
deriving DecidableEq, Repr

/-- A definition or an import. -/
structure Def where
  file : File
  name : Ident
  cond : Cond
  needs : List (Cond × Need)
  /-- parts of which one is compiled -/
  choices : List (List Cond) := []
  isImport : Bool := false

abbrev located : Cond := .cfg .spanLocations
abbrev wrap : Cond := .cfg .wrapProcMacro
abbrev exempt : Cond := .cfg .semverExempt
/-- `all(span_locations, not(fuzzing))` -/
abbrev mapped : Cond := .all located (.not (.cfg .fuzzing))

/-- A condition and its opposite. -/
abbrev either (c : Cond) : List Cond := [c, .not c]

/-- The `cfg` of a probe's module, src/probe.rs:3-10. -/
def moduleCfg : Probe → Cfg
  | .span => .procMacroSpan
  | .file => .procMacroSpanFile
  | .location => .procMacroSpanLocation

/-- When a file is compiled, src/lib.rs:144-172 and src/probe.rs:3-10. -/
def fileCond : File → Cond
  | .lib | .extra | .fallback | .parse => .always
  | .detection => wrap
  | .wrapper => wrap
  | .location => located
  | .num | .escaper => exempt
  | .probe f => .cfg (moduleCfg f)

/-- The features that a probe turns on, src/probe/proc_macro_span.rs:6. -/
def probeFeatures : Probe → List Feature
  | .span => [.procMacroSpan]
  | .location | .file => []

/-- The functions of src/probe/proc_macro_span.rs:17-51, src/probe/proc_macro_span_location.rs:11-25 and
src/probe/proc_macro_span_file.rs:13-19: each calls the method after which it is named. -/
def probeFunctions : Probe → List (Ident × Method)
  | .span => [(.byteRange, .byteRange), (.start, .start), (.end, .end), (.line, .line), (.column, .column), (.file, .file),
    (.localFile, .localFile), (.join, .join), (.subspan, .subspan)]
  | .location => [(.start, .start), (.end, .end), (.line, .line), (.column, .column)]
  | .file => [(.file, .file), (.localFile, .localFile)]

/-- The features that the crate turns on, src/lib.rs:88-89. -/
def crateFeatures (e : Env) : List Feature :=
  (if e.cfg .procMacroSpan || e.cfg .superUnstable then [.procMacroSpan] else []) ++
  if e.cfg .superUnstable then [.procMacroDefSite] else []

/-- An import. -/
abbrev use (file : File) (name : Ident) (cond : Cond) (needs : List (Cond × Need) := []) : Def :=
  { file, name, cond, needs, isImport := true }

/-- A definition. -/
abbrev defn (file : File) (name : Ident) (cond : Cond) (needs : List (Cond × Need)) (choices : List (List Cond) := []) :
    Def :=
  { file, name, cond, needs, choices }

/-- Refers to, everywhere in the definition. -/
abbrev to (file : File) (name : Ident) : Cond × Need := (.always, .item file name)
/-- Refers to, in a part of the definition. -/
abbrev onlyIf (c : Cond) (file : File) (name : Ident) : Cond × Need := (c, .item file name)
/-- Refers to `imp::…`. -/
abbrev toImp (name : Ident) : Cond × Need := (.always, .imp name)

/-- The conditional definitions of src/lib.rs. -/
def libDefs : List Def := [
  /- src/lib.rs:141-142 -/
  defn .lib .procMacro .procMacro [],
  /- src/lib.rs:176-182, 187-201 -/
  use .lib .mixedUnit exempt [to .escaper .mixedUnit],
  use .lib .toOwned exempt,
  use .lib .vec exempt,
  use .lib .range located,
  use .lib .pathBuf located,
  use .lib .lineColumn located [to .location .lineColumn],
  use .lib .escapeError exempt [to .escaper .escapeError],
  /- src/lib.rs:264-276 -/
  defn .lib .streamChecked .always [toImp .streamChecked],
  /- src/lib.rs:278-292 -/
  defn .lib .fromCompiler .procMacro [to .lib .procMacro, toImp .fromCompiler],
  defn .lib .intoCompiler .procMacro [to .lib .procMacro, toImp .intoCompiler],
  /- src/lib.rs:429-433 -/
  defn .lib .defSite exempt [toImp .defSite],
  /- src/lib.rs:457-467 -/
  defn .lib .unwrap wrap [to .lib .procMacro, toImp .unwrap],
  defn .lib .unstable wrap [to .lib .procMacro, to .lib .unwrap],
  /- src/lib.rs:478-535 -/
  defn .lib .byteRange located [to .lib .range, toImp .byteRange],
  defn .lib .start located [to .lib .lineColumn, toImp .start],
  defn .lib .end located [to .lib .lineColumn, toImp .end],
  defn .lib .file located [toImp .file],
  defn .lib .localFile located [to .lib .pathBuf, toImp .localFile],
  /- src/lib.rs:547-570 -/
  defn .lib .join .always [toImp .join],
  defn .lib .eq exempt [toImp .eq],
  defn .lib .sourceText .always [toImp .sourceText],
  /- src/lib.rs:665, 898 -/
  defn .lib .punctDebug .always [toImp .debugSpan],
  /- src/lib.rs:1273-1276, 1281-1284 -/
  defn .lib .byteCharacter .always [toImp .byteCharacter],
  defn .lib .cString .always [toImp .cString],
  /- src/lib.rs:1305-1307 -/
  defn .lib .subspan .always [toImp .subspan],
  /- src/lib.rs:1311-1341 -/
  defn .lib .strValue exempt [to .lib .conversionErrorKind, to .lib .getRaw, to .escaper .unescape, to .lib .toOwned],
  /- src/lib.rs:1344-1382 -/
  defn .lib .cstrValue exempt [to .lib .conversionErrorKind, to .lib .getRaw, to .escaper .unescape, to .lib .vec,
    to .lib .mixedUnit],
  /- src/lib.rs:1385-1415 -/
  defn .lib .byteStrValue exempt [to .lib .conversionErrorKind, to .lib .getRaw, to .escaper .unescape, to .lib .vec,
    to .lib .toOwned],
  /- src/lib.rs:1429-1437 -/
  defn .lib .literalChecked .always [toImp .literalChecked],
  /- src/lib.rs:1453-1462 -/
  defn .lib .conversionErrorKind exempt [to .lib .escapeError],
  /- src/lib.rs:1465-1477 -/
  defn .lib .getRaw exempt []]

/-- The conditional definitions of src/extra.rs. -/
def extraDefs : List Def := [
  /- src/extra.rs:71-75 -/
  defn .extra .invalidate located [toImp .invalidate],
  /- src/extra.rs:89-94 -/
  defn .extra .delimSpanCompiler wrap [to .lib .procMacro],
  /- src/extra.rs:99-117 -/
  defn .extra .delimSpanNew .always [onlyIf wrap .extra .delimSpanCompiler] [either wrap],
  /- src/extra.rs:120-144: the pattern for the compiler's variant is there exactly if the variant is -/
  defn .extra .delimSpanJoin .always [onlyIf wrap .extra .delimSpanCompiler],
  defn .extra .delimSpanOpen .always [onlyIf wrap .extra .delimSpanCompiler, to .fallback .firstByte],
  defn .extra .delimSpanClose .always [onlyIf wrap .extra .delimSpanCompiler, to .fallback .lastByte]]

/-- The conditional definitions of src/wrapper.rs. -/
def wrapperDefs : List Def := [
  /- src/wrapper.rs:1-2 -/
  use .wrapper .insideProcMacro .always [to .detection .insideProcMacro],
  use .wrapper .fromStr2 .always [to .fallback .fromStr2],
  /- src/wrapper.rs:3-22 -/
  use .wrapper .lineColumn located [to .location .lineColumn],
  use .wrapper (.probeModule .span) (.cfg .procMacroSpan) [to .lib (.probeModule .span)],
  use .wrapper (.probeModule .file) (.all located (.cfg .procMacroSpanFile)) [to .lib (.probeModule .file)],
  use .wrapper (.probeModule .location) (.all located (.cfg .procMacroSpanLocation)) [to .lib (.probeModule .location)],
  use .wrapper .toOwned (.all located (.not (.cfg .procMacroSpanFile))),
  use .wrapper .range located,
  use .wrapper .pathBuf located,
  /- src/wrapper.rs:49-60 -/
  defn .wrapper .mismatch .always [] [either (.cfg .backtrace)],
  /- src/wrapper.rs:98-108 -/
  defn .wrapper .streamChecked .always [to .wrapper .insideProcMacro, to .wrapper .fromStr2, to .fallback .checked,
    to .fallback .streamChecked, to .lib .procMacro],
  /- src/wrapper.rs:141-156 -/
  defn .wrapper .fromCompiler .always [to .lib .procMacro],
  defn .wrapper .intoCompiler .always [to .lib .procMacro, to .wrapper .fromStr2, to .fallback .unchecked],
  /- src/wrapper.rs:396-403 -/
  defn .wrapper .defSite (.cfg .superUnstable) [(.always, .method .defSite), to .fallback .defSite],
  /- src/wrapper.rs:423-428 -/
  defn .wrapper .unwrap .always [to .lib .procMacro],
  /- src/wrapper.rs:430-439 -/
  defn .wrapper .byteRange located [to .wrapper .range, onlyIf (.cfg .procMacroSpan) .wrapper (.probeModule .span),
    onlyIf (.cfg .procMacroSpan) (.probe .span) .byteRange, to .fallback .byteRange] [either (.cfg .procMacroSpan)],
  /- src/wrapper.rs:441-453 -/
  defn .wrapper .start located [to .wrapper .lineColumn,
    onlyIf (.cfg .procMacroSpanLocation) .wrapper (.probeModule .location),
    onlyIf (.cfg .procMacroSpanLocation) (.probe .location) .line,
    onlyIf (.cfg .procMacroSpanLocation) (.probe .location) .column,
    to .fallback .start] [either (.cfg .procMacroSpanLocation)],
  /- src/wrapper.rs:455-470 -/
  defn .wrapper .end located [to .wrapper .lineColumn,
    onlyIf (.cfg .procMacroSpanLocation) .wrapper (.probeModule .location),
    onlyIf (.cfg .procMacroSpanLocation) (.probe .location) .end,
    onlyIf (.cfg .procMacroSpanLocation) (.probe .location) .line,
    onlyIf (.cfg .procMacroSpanLocation) (.probe .location) .column,
    to .fallback .end] [either (.cfg .procMacroSpanLocation)],
  /- src/wrapper.rs:472-481 -/
  defn .wrapper .file located [onlyIf (.cfg .procMacroSpanFile) .wrapper (.probeModule .file),
    onlyIf (.cfg .procMacroSpanFile) (.probe .file) .file, onlyIf (.not (.cfg .procMacroSpanFile)) .wrapper .toOwned,
    to .fallback .file] [either (.cfg .procMacroSpanFile)],
  /- src/wrapper.rs:483-492 -/
  defn .wrapper .localFile located [to .wrapper .pathBuf, onlyIf (.cfg .procMacroSpanFile) .wrapper (.probeModule .file),
    onlyIf (.cfg .procMacroSpanFile) (.probe .file) .localFile, to .fallback .localFile] [either (.cfg .procMacroSpanFile)],
  /- src/wrapper.rs:494-502: without the first arm, the last one stands for it -/
  defn .wrapper .join .always [onlyIf (.cfg .procMacroSpan) .wrapper (.probeModule .span),
    onlyIf (.cfg .procMacroSpan) (.probe .span) .join, to .fallback .join],
  /- src/wrapper.rs:504-511 -/
  defn .wrapper .eq (.cfg .superUnstable) [(.always, .method .spanEq), to .fallback .eq],
  /- src/wrapper.rs:513-521 -/
  defn .wrapper .sourceText .always [(.not (.cfg .noSourceText), .method .sourceText), to .fallback .sourceText]
    [either (.not (.cfg .noSourceText))],
  /- src/wrapper.rs:552-559 -/
  defn .wrapper .debugSpan .always [to .fallback .debugSpan],
  /- src/wrapper.rs:792-800 -/
  defn .wrapper .literalChecked .always [to .wrapper .insideProcMacro, to .wrapper .fromStr2, to .fallback .checked,
    to .fallback .literalChecked, to .lib .procMacro],
  /- src/wrapper.rs:875-892 -/
  defn .wrapper .byteCharacter .always [(.not (.cfg .noLiteralByteCharacter), .method .byteCharacter),
    onlyIf (.cfg .noLiteralByteCharacter) .wrapper .fromStr2, onlyIf (.cfg .noLiteralByteCharacter) .fallback .unchecked]
    [either (.not (.cfg .noLiteralByteCharacter))],
  /- src/wrapper.rs:902-919 -/
  defn .wrapper .cString .always [(.not (.cfg .noLiteralCString), .method .cString),
    onlyIf (.cfg .noLiteralCString) .wrapper .fromStr2, onlyIf (.cfg .noLiteralCString) .fallback .unchecked]
    [either (.not (.cfg .noLiteralCString))],
  /- src/wrapper.rs:937-945 -/
  defn .wrapper .subspan .always [onlyIf (.cfg .procMacroSpan) .wrapper (.probeModule .span),
    onlyIf (.cfg .procMacroSpan) (.probe .span) .subspan, to .fallback .subspan] [either (.cfg .procMacroSpan)],
  /- src/wrapper.rs:979-987 -/
  defn .wrapper .invalidate located [to .wrapper .insideProcMacro, to .fallback .invalidate]]

/-- The conditional definitions of src/fallback.rs. -/
def fallbackDefs : List Def := [
  /- src/fallback.rs:1-38 -/
  use .fallback .imp wrap,
  use .fallback .lineColumn located [to .location .lineColumn],
  use .fallback .btreeMap mapped,
  use .fallback .vecMacro mapped,
  use .fallback .refCell mapped,
  use .fallback .cmp located,
  use .fallback .ordering mapped,
  use .fallback .range located,
  use .fallback .fromStr .procMacro,
  use .fallback .panic wrap,
  use .fallback .pathBuf located,
  use .fallback .threadLocal mapped,
  /- src/fallback.rs:42-52 -/
  defn .fallback .force .always [onlyIf wrap .detection .forceFallback],
  defn .fallback .unforce .always [onlyIf wrap .detection .unforceFallback],
  /- src/fallback.rs:83-99 -/
  defn .fallback .streamChecked .always [to .fallback .getCursor],
  defn .fallback .streamUnchecked .procMacro [to .fallback .streamChecked],
  /- src/fallback.rs:110-131: a field of a pattern -/
  defn .fallback .pushNegative .always [] [either wrap],
  /- src/fallback.rs:197-217 -/
  defn .fallback .getCursor located [to .parse .off, onlyIf (.not (.cfg .fuzzing)) .fallback .sourceMap,
    onlyIf (.not (.cfg .fuzzing)) .fallback .lo] [either (.cfg .fuzzing)],
  defn .fallback .getCursor (.not located) [],
  /- src/fallback.rs:255-267 -/
  defn .fallback .fromCompiler .procMacro [to .lib .procMacro, to .fallback .streamUnchecked],
  defn .fallback .intoCompiler .procMacro [to .lib .procMacro, to .fallback .fromStr2, to .fallback .unchecked],
  /- src/fallback.rs:325-337 -/
  defn .fallback .sourceMap mapped [to .fallback .threadLocal, to .fallback .refCell, to .fallback .sourceMapType,
    to .fallback .vecMacro, to .fallback .fileInfo, to .fallback .callSite, to .fallback .btreeMap],
  /- src/fallback.rs:339-343 -/
  defn .fallback .invalidate located [onlyIf (.not (.cfg .fuzzing)) .fallback .sourceMap],
  /- src/fallback.rs:345-430 -/
  defn .fallback .fileInfo mapped [to .fallback .btreeMap, to .fallback .lineColumn, to .fallback .range, to .fallback .lo,
    to .fallback .hi],
  /- src/fallback.rs:434-447 -/
  defn .fallback .linesOffsets mapped [to .fallback .vecMacro],
  /- src/fallback.rs:449-515 -/
  defn .fallback .sourceMapType mapped [to .fallback .fileInfo, to .fallback .linesOffsets, to .fallback .btreeMap,
    to .fallback .ordering, to .fallback .lo, to .fallback .hi],
  /- src/fallback.rs:519-525 -/
  defn .fallback .lo located [],
  defn .fallback .hi located [],
  defn .fallback .eq .always [onlyIf located .fallback .lo, onlyIf located .fallback .hi],
  /- src/fallback.rs:528-536 -/
  defn .fallback .callSite (.not located) [],
  defn .fallback .callSite located [to .fallback .lo, to .fallback .hi],
  /- src/fallback.rs:538-556 -/
  defn .fallback .mixedSite .always [to .fallback .callSite],
  defn .fallback .defSite exempt [to .fallback .callSite],
  /- src/fallback.rs:558-571 -/
  defn .fallback .byteRange located [to .fallback .range, onlyIf (.not (.cfg .fuzzing)) .fallback .isCallSite,
    onlyIf (.not (.cfg .fuzzing)) .fallback .sourceMap] [either (.cfg .fuzzing)],
  /- src/fallback.rs:573-584 -/
  defn .fallback .start located [to .fallback .lineColumn, onlyIf (.not (.cfg .fuzzing)) .fallback .sourceMap,
    onlyIf (.not (.cfg .fuzzing)) .fallback .lo] [either (.cfg .fuzzing)],
  /- src/fallback.rs:586-597 -/
  defn .fallback .end located [to .fallback .lineColumn, onlyIf (.not (.cfg .fuzzing)) .fallback .sourceMap,
    onlyIf (.not (.cfg .fuzzing)) .fallback .hi] [either (.cfg .fuzzing)],
  /- src/fallback.rs:599-614 -/
  defn .fallback .file located [onlyIf (.not (.cfg .fuzzing)) .fallback .sourceMap] [either (.cfg .fuzzing)],
  defn .fallback .localFile located [to .fallback .pathBuf],
  /- src/fallback.rs:616-641 -/
  defn .fallback .join (.not located) [],
  defn .fallback .join located [onlyIf (.not (.cfg .fuzzing)) .fallback .sourceMap,
    onlyIf (.not (.cfg .fuzzing)) .fallback .cmp, onlyIf (.not (.cfg .fuzzing)) .fallback .lo,
    onlyIf (.not (.cfg .fuzzing)) .fallback .hi] [either (.cfg .fuzzing)],
  /- src/fallback.rs:643-661 -/
  defn .fallback .sourceText (.not located) [],
  defn .fallback .sourceText located [onlyIf (.not (.cfg .fuzzing)) .fallback .isCallSite,
    onlyIf (.not (.cfg .fuzzing)) .fallback .sourceMap] [either (.cfg .fuzzing)],
  /- src/fallback.rs:663-692 -/
  defn .fallback .firstByte (.not located) [],
  defn .fallback .firstByte located [to .fallback .cmp, to .fallback .lo, to .fallback .hi],
  defn .fallback .lastByte (.not located) [],
  defn .fallback .lastByte located [to .fallback .cmp, to .fallback .lo, to .fallback .hi],
  defn .fallback .isCallSite located [to .fallback .lo, to .fallback .hi],
  /- src/fallback.rs:695-703 -/
  defn .fallback .spanDebug .always [onlyIf located .fallback .lo, onlyIf located .fallback .hi] [either located],
  /- src/fallback.rs:705-720 -/
  defn .fallback .debugSpan .always [onlyIf located .fallback .isCallSite],
  /- src/fallback.rs:746-752 -/
  defn .fallback .spanOpen .always [to .fallback .firstByte],
  defn .fallback .spanClose .always [to .fallback .lastByte],
  /- src/fallback.rs:922-939 -/
  defn .fallback .identDebug (.not located) [],
  defn .fallback .identDebug located [to .fallback .debugSpan],
  /- src/fallback.rs:972-1000 -/
  defn .fallback .literalChecked .always [to .fallback .getCursor, onlyIf located .parse .off, onlyIf located .fallback .lo,
    onlyIf located .fallback .hi],
  /- src/fallback.rs:1157-1197 -/
  defn .fallback .subspan .always [onlyIf located .fallback .lo, onlyIf located .fallback .hi] [either located],
  /- src/fallback.rs:1076-1094, 1121-1151 -/
  defn .fallback .byteCharacter .always [],
  defn .fallback .cString .always [],
  /- src/fallback.rs:1238-1263 -/
  defn .fallback .fromStr2 .procMacro [to .lib .procMacro, to .fallback .fromStr],
  defn .fallback .valid (.all .procMacro wrap) [to .fallback .streamChecked, to .fallback .literalChecked],
  defn .fallback .checked (.all .procMacro wrap) [to .fallback .imp, to .fallback .valid, to .fallback .panic],
  defn .fallback .unchecked .procMacro []]

/-- The conditional definitions of src/parse.rs. -/
def parseDefs : List Def := [
  /- src/parse.rs:13-17 -/
  defn .parse .off located [],
  /- src/parse.rs:20-27 -/
  defn .parse .advance .always [onlyIf located .parse .off],
  /- src/parse.rs:177-250: the position of a frame, the error and the two spans -/
  defn .parse .tokenStream .always [onlyIf located .parse .off, onlyIf located .fallback .lo, onlyIf located .fallback .hi]
    [either located],
  /- src/parse.rs:252-263 -/
  defn .parse .lexError .always [onlyIf located .parse .off, onlyIf located .fallback .lo, onlyIf located .fallback .hi],
  /- src/parse.rs:908-945 -/
  defn .parse .docComment .always [onlyIf located .parse .off, onlyIf located .fallback .lo, onlyIf located .fallback .hi]]

/-- The conditional definitions of the other files. -/
def otherDefs : List Def := [
  /- src/detection.rs:7-15 -/
  defn .detection .insideProcMacro .always [to .detection .initialize],
  /- src/detection.rs:18-24 -/
  defn .detection .forceFallback .always [],
  defn .detection .unforceFallback .always [to .detection .initialize],
  /- src/detection.rs:26-30 -/
  defn .detection .initialize (.not (.cfg .noIsAvailable)) [to .lib .procMacro, (.always, .method .isAvailable)],
  /- src/detection.rs:56-75 -/
  defn .detection .initialize (.cfg .noIsAvailable) [to .lib .procMacro],
  /- src/location.rs:7-15 -/
  defn .location .lineColumn .always [],
  /- src/num.rs:2-3 -/
  defn .num .nonZeroChar .always [],
  /- src/rustc_literal_escaper.rs:7 -/
  use .escaper .nonZeroChar .always [to .num .nonZeroChar],
  /- src/rustc_literal_escaper.rs:15, 254 -/
  defn .escaper .escapeError .always [],
  defn .escaper .mixedUnit .always [to .escaper .nonZeroChar],
  /- src/rustc_literal_escaper.rs:84-140 -/
  defn .escaper .unescape .always [to .escaper .escapeError, to .escaper .mixedUnit, to .escaper .nonZeroChar]]

/-- src/probe.rs:3-10, and the functions in each file. -/
def probeDefs (f : Probe) : List Def :=
  defn .lib (.probeModule f) (.cfg (moduleCfg f)) [] ::
  (probeFunctions f).map fun (i, m) => defn (.probe f) i .always [to .lib .procMacro, (.always, .method m)]

/-- All of them. -/
def defs : List Def :=
  libDefs ++ extraDefs ++ wrapperDefs ++ fallbackDefs ++ parseDefs ++ otherDefs ++
  probeDefs .span ++ probeDefs .location ++ probeDefs .file

/-- src/lib.rs:129-137: whether the second `compile_error!` is compiled. -/
def probeError (e : Env) : Bool := e.cfg .nightlyTesting && e.procMacro && !e.cfg .procMacroSpan

end PM2.Crate
