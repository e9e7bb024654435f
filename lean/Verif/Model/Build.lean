import Verif.Model.LitCtor
/-!
# The build script (build.rs)

What the script reads (features, environment, the file system, the compiler) is a `Host`; what it does is to print
lines for Cargo and to end, or to end with `process::exit(1)`. Lines are structured; `Line.text` is what is
printed. What it writes to stderr is left out. Texts of the environment are lists of characters, and paths are
joined as on Unix.
-/

namespace PM2.Build

abbrev Text := List Char

/-- The names of `cfg`s, build.rs:18-33. -/
inductive Cfg where
  | fuzzing
  | noIsAvailable
  | noLiteralByteCharacter
  | noLiteralCString
  | noSourceText
  | procMacroSpan
  | procMacroSpanFile
  | procMacroSpanLocation
  | backtrace
  | buildProbe
  | nightlyTesting
  | semverExempt
  | randomizeLayout
  | spanLocations
  | superUnstable
  | wrapProcMacro
deriving DecidableEq, Repr

/-- build.rs:18-33. -/
def Cfg.name : Cfg → Text
  | fuzzing => "fuzzing".toList
  | noIsAvailable => "no_is_available".toList
  | noLiteralByteCharacter => "no_literal_byte_character".toList
  | noLiteralCString => "no_literal_c_string".toList
  | noSourceText => "no_source_text".toList
  | procMacroSpan => "proc_macro_span".toList
  | procMacroSpanFile => "proc_macro_span_file".toList
  | procMacroSpanLocation => "proc_macro_span_location".toList
  | backtrace => "procmacro2_backtrace".toList
  | buildProbe => "procmacro2_build_probe".toList
  | nightlyTesting => "procmacro2_nightly_testing".toList
  | semverExempt => "procmacro2_semver_exempt".toList
  | randomizeLayout => "randomize_layout".toList
  | spanLocations => "span_locations".toList
  | superUnstable => "super_unstable".toList
  | wrapProcMacro => "wrap_proc_macro".toList

/-- A line for Cargo, build.rs:18-33, 39, 70, 146 and 166. -/
inductive Line where
  | checkCfg (c : Cfg)
  | cfg (c : Cfg)
  | rerunIfChanged (path : Text)
  | rerunIfEnvChanged (var : Text)
deriving DecidableEq, Repr

/-- The text printed, build.rs:18, 39, 70, 146. -/
def Line.text : Line → Text
  | checkCfg c => "cargo:rustc-check-cfg=cfg(".toList ++ c.name ++ [')']
  | cfg c => "cargo:rustc-cfg=".toList ++ c.name
  | rerunIfChanged p => "cargo:rerun-if-changed=".toList ++ p
  | rerunIfEnvChanged v => "cargo:rerun-if-env-changed=".toList ++ v

/-- The probes: the files of src/probe. -/
inductive Probe where
  | span
  | location
  | file
deriving DecidableEq, Repr

/-- build.rs:76, 127, 133. -/
def Probe.name : Probe → Text
  | span => "proc_macro_span".toList
  | location => "proc_macro_span_location".toList
  | file => "proc_macro_span_file".toList

/-- `std::io::ErrorKind`, as far as it is looked at. -/
inductive ErrorKind where
  | alreadyExists
  | notFound
  | other
deriving DecidableEq, Repr

structure IoError where
  kind : ErrorKind
  rawOsError : Option Nat

/-- What the script reads. Environment variables that are not set are `none`. -/
structure Host where
  /-- `cfg!(procmacro2_semver_exempt)` -/
  semverExempt : Bool
  /-- `cfg!(feature = "span-locations")` -/
  spanLocations : Bool
  /-- `cfg!(feature = "proc-macro")` -/
  procMacro : Bool
  /-- `cfg!(target_os = "linux")` -/
  linux : Bool
  rustc : Option Text
  outDir : Option Text
  rustcStage : Option Text
  rustcBootstrap : Option Text
  rustcWrapper : Option Text
  rustcWorkspaceWrapper : Option Text
  target : Option Text
  /-- `none` also if it is not Unicode -/
  encodedRustflags : Option Text
  /-- what `rustc --version` writes to stdout, or `none` if it cannot be run -/
  version : Text → Option (List UInt8)
  /-- the error of `fs::create_dir` when a probe is compiled, with or without `RUSTC_BOOTSTRAP` -/
  createDir : Probe → Bool → Option IoError
  /-- the error of `fs::remove_dir_all` after that -/
  removeDir : Probe → Bool → Option IoError
  /-- whether a command succeeds, given `RUSTC_BOOTSTRAP` in its environment; `none` if it cannot be run -/
  run : Option Text → List Text → Option Bool

/-- A part of the script: the lines printed, and the result or `none` for `process::exit(1)`. -/
structure Script (α : Type) where
  lines : List Line
  result : Option α

namespace Script
variable {α β : Type}

def bind (x : Script α) (f : α → Script β) : Script β :=
  match x.result with
  | none => ⟨x.lines, none⟩
  | some a => ⟨x.lines ++ (f a).lines, (f a).result⟩

instance : Monad Script where
  pure a := ⟨[], some a⟩
  bind := bind

/-- `println!` -/
def print (l : Line) : Script Unit := ⟨[l], some ()⟩

/-- `if c { … }` -/
def when (c : Bool) (x : Script Unit) : Script Unit := if c then x else ⟨[], some ()⟩

/-- `process::exit(1)` -/
def exit : Script α := ⟨[], none⟩

end Script

open Script

/-- build.rs:259-267 `cargo_env_var`. -/
def cargoEnvVar (value : Option Text) : Script Text :=
  match value with
  | some v => pure v
  | none => exit

/-- `str::split(char)`: the first piece and the others. -/
def split (c : Char) : Text → Text × List Text
  | [] => ([], [])
  | x :: xs =>
    let (p, ps) := split c xs
    if x = c then ([], p :: ps) else (x :: p, ps)

/-- The digits of `u32::from_str`, with what has been read. -/
def parseDigits : Nat → Text → Option Nat
  | n, [] => some n
  | n, c :: cs =>
    if '0' ≤ c ∧ c ≤ '9' then
      let n := n * 10 + (c.toNat - '0'.toNat)
      if n < u32Size then parseDigits n cs else none
    else none

/-- `u32::from_str`. -/
def parseU32 (s : Text) : Option Nat :=
  match s with
  | [] => none
  | ['+'] => none
  | '+' :: cs => parseDigits 0 cs
  | cs => parseDigits 0 cs

/-- build.rs:251-256, given what `rustc --version` wrote. -/
def minorOf (stdout : List UInt8) : Option Nat :=
  match fromUtf8 stdout.length stdout with
  | (_, _, some _) => none
  | (version, _, none) =>
    let (first, rest) := split '.' version
    if first ≠ "rustc 1".toList then none
    else match rest with
      | [] => none
      | piece :: _ => parseU32 piece

/-- build.rs:248-257 `rustc_minor_version`. -/
def rustcMinorVersion (h : Host) : Script (Option Nat) := do
  let rustc ← cargoEnvVar h.rustc
  pure ((h.version rustc).bind minorOf)

/-- `Path::join` of a relative path. -/
def joinPath (a b : Text) : Text :=
  if a = [] ∨ a.getLast? = some '/' then a ++ b else a ++ '/' :: b

/-- `split` with all pieces. -/
def pieces (c : Char) (s : Text) : List Text := (split c s).1 :: (split c s).2

/-- build.rs:183-188: `filter(|wrapper| !wrapper.is_empty())` and `into_iter`. -/
def wrapperOf : Option Text → List Text
  | some w => if w.isEmpty then [] else [w]
  | none => []

/-- build.rs:208-210. -/
def targetOf : Option Text → List Text
  | some t => ["--target".toList, t]
  | none => []

/-- build.rs:213-219. -/
def flagsOf : Option Text → List Text
  | some flags => if flags.isEmpty then [] else pieces '\x1f' flags
  | none => []

/-- build.rs:170-174 and 183-219: the command. The first argument is the program. -/
def probeCommand (h : Host) (rustc outDir : Text) (f : Probe) : List Text :=
  wrapperOf h.rustcWrapper ++ wrapperOf h.rustcWorkspaceWrapper ++ [rustc] ++
  ["--cfg=procmacro2_build_probe".toList, "--edition=2021".toList, "--crate-name=proc_macro2".toList,
    "--crate-type=lib".toList, "--cap-lints=allow".toList, "--emit=dep-info,metadata".toList,
    "--out-dir".toList, joinPath outDir "probe".toList,
    "src/probe/".toList ++ f.name ++ ".rs".toList] ++
  targetOf h.target ++ flagsOf h.encodedRustflags

/-- build.rs:165-246 `do_compile_probe`. -/
def doCompileProbe (h : Host) (f : Probe) (rustcBootstrap : Bool) : Script Bool := do
  print (.rerunIfChanged ("src/probe/".toList ++ f.name ++ ".rs".toList))
  let rustc ← cargoEnvVar h.rustc
  let outDir ← cargoEnvVar h.outDir
  match h.createDir f rustcBootstrap with
  | some err => if err.kind ≠ .alreadyExists then exit else pure ()
  | none => pure ()
  let success := (h.run (if rustcBootstrap then h.rustcBootstrap else none) (probeCommand h rustc outDir f)).getD false
  match h.removeDir f rustcBootstrap with
  | some err =>
    if !(err.kind = .notFound || (h.linux && err.rawOsError = some 39)) then exit else pure ()
  | none => pure ()
  pure success

/-- build.rs:150-159 `compile_probe_unstable`. -/
def compileProbeUnstable (h : Host) (f : Probe) (rustcBootstrap : Bool) : Script Bool :=
  if h.rustcStage.isNone then doCompileProbe h f rustcBootstrap else pure false

/-- build.rs:161-163 `compile_probe_stable`. -/
def compileProbeStable (h : Host) (f : Probe) : Script Bool :=
  if h.rustcStage.isSome then pure true else doCompileProbe h f true

/-- build.rs:17-34. -/
def checkCfgs : Script Unit := do
  print (.checkCfg .fuzzing)
  print (.checkCfg .noIsAvailable)
  print (.checkCfg .noLiteralByteCharacter)
  print (.checkCfg .noLiteralCString)
  print (.checkCfg .noSourceText)
  print (.checkCfg .procMacroSpan)
  print (.checkCfg .procMacroSpanFile)
  print (.checkCfg .procMacroSpanLocation)
  print (.checkCfg .backtrace)
  print (.checkCfg .buildProbe)
  print (.checkCfg .nightlyTesting)
  print (.checkCfg .semverExempt)
  print (.checkCfg .randomizeLayout)
  print (.checkCfg .spanLocations)
  print (.checkCfg .superUnstable)
  print (.checkCfg .wrapProcMacro)

/-- build.rs:74-107: `proc_macro_span` and `consider_rustc_bootstrap`. -/
def probeSpan (h : Host) : Script (Bool × Bool) := do
  if ← compileProbeUnstable h .span false then
    pure (true, false)
  else match h.rustcBootstrap with
    | some rustcBootstrap => do
      if ← compileProbeUnstable h .span true then pure (true, true)
      else if rustcBootstrap = ['1'] then pure (false, false)
      else pure (false, true)
    | none => pure (false, true)

/-- `a || (b && probe)`, build.rs:127 and 133. -/
def orProbe (a b : Bool) (probe : Script Bool) : Script Bool :=
  if a then pure true else if b then probe else pure false

/-- build.rs:14-148 `main`. -/
def main (h : Host) : Script Unit := do
  let rustc := (← rustcMinorVersion h).getD (u32Size - 1)
  when (80 ≤ rustc) checkCfgs
  when h.semverExempt (print (.cfg .semverExempt))
  when (h.semverExempt || h.spanLocations) (print (.cfg .spanLocations))
  when (rustc < 57) (print (.cfg .noIsAvailable))
  when (rustc < 66) (print (.cfg .noSourceText))
  when (rustc < 79) (do
    print (.cfg .noLiteralByteCharacter)
    print (.cfg .noLiteralCString))
  if !h.procMacro then print (.rerunIfChanged "build.rs".toList)
  else do
    let (procMacroSpan, considerRustcBootstrap) ← probeSpan h
    when (procMacroSpan || !h.semverExempt) (print (.cfg .wrapProcMacro))
    when procMacroSpan (print (.cfg .procMacroSpan))
    when (← orProbe procMacroSpan (88 ≤ rustc) (compileProbeStable h .location)) (print (.cfg .procMacroSpanLocation))
    when (← orProbe procMacroSpan (88 ≤ rustc) (compileProbeStable h .file)) (print (.cfg .procMacroSpanFile))
    when (h.semverExempt && procMacroSpan) (print (.cfg .superUnstable))
    when considerRustcBootstrap (print (.rerunIfEnvChanged "RUSTC_BOOTSTRAP".toList))

/-- The `cfg`s that the crate is compiled with because of these lines. -/
def cfgs (lines : List Line) : List Cfg := lines.filterMap fun
  | .cfg c => some c
  | _ => none

/-- src/lib.rs:121-127: whether the first `compile_error!` is compiled, given whether the crate itself is compiled with
`--cfg procmacro2_semver_exempt`. -/
def compileError (semverExempt : Bool) (lines : List Line) : Bool :=
  (semverExempt || (cfgs lines).contains .semverExempt) && (cfgs lines).contains .wrapProcMacro &&
    !(cfgs lines).contains .superUnstable

end PM2.Build
