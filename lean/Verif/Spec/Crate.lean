import Verif.Spec.Build
import Verif.Model.Crate
/-!
# Specification: what the compiler checks of the conditional definitions
-/

namespace PM2.Spec
open Build Crate

/-- A definition is compiled. -/
def Active (e : Env) (d : Def) : Prop := (fileCond d.file).eval e = true ∧ d.cond.eval e = true

/-- There is a definition with this name. -/
def Found (e : Env) (file : File) (name : Crate.Ident) : Prop := ∃ d ∈ defs, d.file = file ∧ d.name = name ∧ Active e d

/-- What is referred to is there. The module `imp` is the wrapper if `proc_macro` is wrapped, and `fallback` otherwise. -/
def FoundNeed (e : Env) : Need → Prop
  | .item file name => Found e file name
  | .imp name => (e.cfg .wrapProcMacro = true ∧ Found e .wrapper name) ∨ (e.cfg .wrapProcMacro = false ∧ Found e .fallback name)
  | .method _ => True

/-- The names of the crate resolve: nothing is defined twice, what is referred to is defined, of two parts that
exclude each other one is compiled, and what is imported is used. -/
structure Resolved (e : Env) : Prop where
  once : defs.Pairwise fun d d' => d.file = d'.file → d.name = d'.name → ¬(Active e d ∧ Active e d')
  found : ∀ d ∈ defs, Active e d → ∀ c need, (c, need) ∈ d.needs → c.eval e = true → FoundNeed e need
  chosen : ∀ d ∈ defs, Active e d → ∀ g ∈ d.choices, (g.filter (·.eval e)).length = 1
  used : ∀ d ∈ defs, d.isImport = true → Active e d →
    ∃ d' ∈ defs, Active e d' ∧ ∃ c, (c, Need.item d.file d.name) ∈ d'.needs ∧ c.eval e = true

/-- The crate is compiled after the script: with the `cfg`s that it printed. Those that it never prints are up to the
user. -/
structure BuiltWith (h : Host) (e : Env) : Prop where
  feature : e.procMacro = h.procMacro
  cfg : ∀ c, c ∉ [Cfg.fuzzing, .backtrace, .nightlyTesting, .buildProbe, .randomizeLayout] →
    (e.cfg c = true ↔ c ∈ cfgs (main h).lines)

/-- How a compiler has a method of `proc_macro`. -/
inductive Status where
  | absent
  | gated (f : Feature)
  | stable
deriving DecidableEq

/-- A compiler: its methods, and the features that it lets a crate turn on, given `RUSTC_BOOTSTRAP`. -/
structure Toolchain where
  status : Method → Status
  allows : Option Text → Feature → Prop

/-- A method can be called where these features are turned on. -/
def Toolchain.Has (t : Toolchain) (features : List Feature) (m : Method) : Prop :=
  t.status m = .stable ∨ ∃ f ∈ features, t.status m = .gated f

/-- The minor version of Rust in which a method became stable. -/
def since : Method → Option Nat
  | .isAvailable => some 57
  | .sourceText => some 66
  | .byteCharacter | .cString => some 79
  | .start | .end | .line | .column | .file | .localFile => some 88
  | .byteRange | .join | .subspan | .defSite | .spanEq => none

/-- The methods in the file of a probe. -/
def probed (f : Probe) : List Method := (probeFunctions f).map (·.2)

/-- The compiler is the one that the script runs: a probe is only compiled if the compiler has what is in it, and a
compiler that does not say that it is older has what is stable since. A nightly compiler can lack what became stable
in its version; for 1.88 this is not excluded, except in the bootstrap of the compiler. -/
structure RunBy (h : Host) (t : Toolchain) : Prop where
  compiles : ∀ b f, Compiles h b f →
    (∀ g ∈ probeFeatures f, t.allows b g) ∧ ∀ m ∈ probed f, t.Has (probeFeatures f) m
  history : ∀ m n, since m = some n → ¬OlderThan h n → (n = 88 → h.rustcStage ≠ none) → t.status m = .stable

/-- `RUSTC_BOOTSTRAP` takes away no feature. -/
def KeepsFeatures (h : Host) (t : Toolchain) : Prop := ∀ f, t.allows none f → t.allows h.rustcBootstrap f

/-- What the exempt API uses beyond what is probed comes with it. -/
def Exempt (t : Toolchain) : Prop :=
  (∀ b, t.allows b .procMacroSpan → t.allows b .procMacroDefSite) ∧
  t.Has [.procMacroSpan, .procMacroDefSite] .defSite ∧ t.Has [.procMacroSpan] .spanEq

/-- The compiler has what the crate turns on and calls. -/
structure Available (h : Host) (t : Toolchain) (e : Env) : Prop where
  features : ∀ f ∈ crateFeatures e, t.allows h.rustcBootstrap f
  methods : ∀ d ∈ defs, Active e d → ∀ c m, (c, Need.method m) ∈ d.needs → c.eval e = true → t.Has (crateFeatures e) m

end PM2.Spec
