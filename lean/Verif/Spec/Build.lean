import Verif.Spec.Number
import Verif.Model.Build
/-!
# Specification: the build script

What the compiler is, which probes are compiled with what command, and what they decide.
-/

namespace PM2.Spec
open PM2.Build

/-- A number below `2^32` in decimal, perhaps with a sign `+` or leading zeros. -/
def Numeral (s : Text) (n : Nat) : Prop :=
  ∃ ds, ds ≠ [] ∧ (∀ c ∈ ds, '0' ≤ c ∧ c ≤ '9') ∧ (s = ds ∨ s = '+' :: ds) ∧ decNumber ds = n ∧ n < 2 ^ 32

/-- The compiler says that it is `rustc 1.m`. -/
def MinorVersion (h : Host) (m : Nat) : Prop :=
  ∃ rustc piece tail, h.rustc = some rustc ∧ h.version rustc = some (bytesOf ("rustc 1.".toList ++ piece ++ tail)) ∧
    '.' ∉ piece ∧ (tail = [] ∨ ∃ t, tail = '.' :: t) ∧ Numeral piece m

/-- The compiler is known to be older than `1.n`. -/
def OlderThan (h : Host) (n : Nat) : Prop := ∃ m, MinorVersion h m ∧ m < n

/-- An optional program before the compiler. -/
def Optional (value : Option Text) (args : List Text) : Prop :=
  (args = [] ∧ (value = none ∨ value = some [])) ∨ ∃ w, w ≠ [] ∧ value = some w ∧ args = [w]

/-- Arguments written with a separator between them. -/
def Encoded (value : Option Text) (args : List Text) : Prop :=
  (args = [] ∧ (value = none ∨ value = some [])) ∨
  ∃ w, w ≠ [] ∧ value = some w ∧ args ≠ [] ∧ (∀ a ∈ args, '\x1f' ∉ a) ∧ ['\x1f'].intercalate args = w

/-- A directory and an entry of it. -/
def EntryPath (dir entry path : Text) : Prop :=
  path = dir ++ entry ∧ (dir = [] ∨ ∃ d, dir = d ++ ['/']) ∨
  path = dir ++ ['/'] ++ entry ∧ dir ≠ [] ∧ ¬∃ d, dir = d ++ ['/']

/-- The file of a probe. -/
def probeFile : Probe → Text
  | .span => "src/probe/proc_macro_span.rs".toList
  | .location => "src/probe/proc_macro_span_location.rs".toList
  | .file => "src/probe/proc_macro_span_file.rs".toList

/-- The command that compiles a probe. -/
def ProbeCommand (h : Host) (f : Probe) (argv : List Text) : Prop :=
  ∃ wrapper workspaceWrapper rustc outDir dir flags,
    Optional h.rustcWrapper wrapper ∧ Optional h.rustcWorkspaceWrapper workspaceWrapper ∧
    h.rustc = some rustc ∧ h.outDir = some outDir ∧ EntryPath outDir "probe".toList dir ∧
    Encoded h.encodedRustflags flags ∧
    argv = wrapper ++ workspaceWrapper ++ [rustc, "--cfg=procmacro2_build_probe".toList, "--edition=2021".toList,
      "--crate-name=proc_macro2".toList, "--crate-type=lib".toList, "--cap-lints=allow".toList,
      "--emit=dep-info,metadata".toList, "--out-dir".toList, dir, probeFile f] ++
      (h.target.toList.flatMap fun t => ["--target".toList, t]) ++ flags

/-- A probe compiles when `RUSTC_BOOTSTRAP` is `bootstrap`. -/
def Compiles (h : Host) (bootstrap : Option Text) (f : Probe) : Prop :=
  ∃ argv, ProbeCommand h f argv ∧ h.run bootstrap argv = some true

/-- The unstable API of `Span` can be used: the probe compiles without `RUSTC_BOOTSTRAP`, or it is set and makes the
probe compile. It is never used in the bootstrap of the compiler itself. -/
def SpanApi (h : Host) : Prop :=
  h.rustcStage = none ∧ (Compiles h none .span ∨ ∃ b, h.rustcBootstrap = some b ∧ Compiles h (some b) .span)

/-- A part of the API of `Span` that is stable since 1.88 can be used. -/
def StableApi (h : Host) (f : Probe) : Prop :=
  ¬OlderThan h 88 ∧ (h.rustcStage ≠ none ∨ Compiles h h.rustcBootstrap f)

/-- What each `cfg` means. -/
def Enabled (h : Host) : Cfg → Prop
  | .semverExempt => h.semverExempt = true
  | .spanLocations => h.semverExempt = true ∨ h.spanLocations = true
  | .noIsAvailable => OlderThan h 57
  | .noSourceText => OlderThan h 66
  | .noLiteralByteCharacter => OlderThan h 79
  | .noLiteralCString => OlderThan h 79
  | .wrapProcMacro => h.procMacro = true ∧ (h.semverExempt = true → SpanApi h)
  | .procMacroSpan => h.procMacro = true ∧ SpanApi h
  | .procMacroSpanLocation => h.procMacro = true ∧ (SpanApi h ∨ StableApi h .location)
  | .procMacroSpanFile => h.procMacro = true ∧ (SpanApi h ∨ StableApi h .file)
  | .superUnstable => h.procMacro = true ∧ h.semverExempt = true ∧ SpanApi h
  | .fuzzing | .backtrace | .buildProbe | .nightlyTesting | .randomizeLayout => False

/-- How the sources of the crate spell the names that they test with `cfg`. -/
def sourceName : Cfg → Text
  /- src/fallback.rs:10 -/
  | .fuzzing => "fuzzing".toList
  /- src/detection.rs:26, 56 -/
  | .noIsAvailable => "no_is_available".toList
  /- src/wrapper.rs:878, 883 -/
  | .noLiteralByteCharacter => "no_literal_byte_character".toList
  /- src/wrapper.rs:905, 910 -/
  | .noLiteralCString => "no_literal_c_string".toList
  /- src/wrapper.rs:515, 517 -/
  | .noSourceText => "no_source_text".toList
  /- src/wrapper.rs:5, 433 -/
  | .procMacroSpan => "proc_macro_span".toList
  /- src/wrapper.rs:7, 12, 475 -/
  | .procMacroSpanFile => "proc_macro_span_file".toList
  /- src/wrapper.rs:9, 444, 449 -/
  | .procMacroSpanLocation => "proc_macro_span_location".toList
  /- src/wrapper.rs:51, 56 -/
  | .backtrace => "procmacro2_backtrace".toList
  /- src/probe/proc_macro_span.rs:5-6, src/probe/proc_macro_span_location.rs:3 -/
  | .buildProbe => "procmacro2_build_probe".toList
  /- src/lib.rs:129-133 -/
  | .nightlyTesting => "procmacro2_nightly_testing".toList
  /- src/fallback.rs:542, src/lib.rs:121 -/
  | .semverExempt => "procmacro2_semver_exempt".toList
  /- tests/test_size.rs:8 -/
  | .randomizeLayout => "randomize_layout".toList
  /- src/wrapper.rs:3, 7, 9 -/
  | .spanLocations => "span_locations".toList
  /- src/wrapper.rs:396, 504, src/lib.rs:88 -/
  | .superUnstable => "super_unstable".toList
  /- src/fallback.rs:1, 33, 43 -/
  | .wrapProcMacro => "wrap_proc_macro".toList

/-- The probes that are compiled, with or without `RUSTC_BOOTSTRAP`. -/
def Probed (h : Host) (f : Probe) (bootstrap : Bool) : Prop :=
  h.procMacro = true ∧ h.rustcStage = none ∧
  match f, bootstrap with
  | .span, false => True
  | .span, true => h.rustcBootstrap ≠ none ∧ ¬Compiles h none .span
  | .location, true | .file, true => ¬SpanApi h ∧ ¬OlderThan h 88
  | _, false => False

/-- Compiling a probe goes wrong, other than by errors of the compiler. -/
def Broken (h : Host) (f : Probe) (bootstrap : Bool) : Prop :=
  h.outDir = none ∨ (∃ e, h.createDir f bootstrap = some e ∧ e.kind ≠ .alreadyExists) ∨
  ∃ e, h.removeDir f bootstrap = some e ∧ e.kind ≠ .notFound ∧ ¬(h.linux = true ∧ e.rawOsError = some 39)

end PM2.Spec
