import Verif.Proof.Crate
import Verif.Props.Build
/-! # C111: conditional compilation -/

namespace PM2.Props
open Spec PM2.Build PM2.Crate

theorem builtWith_cfg {h : Host} {e : Env} (hm : (main h).result = some ()) (hb : BuiltWith h e) {c : Cfg}
    (hc : c ∉ [Cfg.fuzzing, .backtrace, .nightlyTesting, .buildProbe, .randomizeLayout] := by decide) :
    e.cfg c = true ↔ Enabled h c := (hb.cfg c hc).trans (C86_cfgs hm c)

theorem consistent {h : Host} {e : Env} (hm : (main h).result = some ()) (hb : BuiltWith h e) : Consistent e := by
  have hw := builtWith_cfg hm hb (c := .wrapProcMacro)
  have hs := builtWith_cfg hm hb (c := .procMacroSpan)
  have hx := builtWith_cfg hm hb (c := .semverExempt)
  have hu := builtWith_cfg hm hb (c := .superUnstable)
  have hl := builtWith_cfg hm hb (c := .spanLocations)
  have hf := builtWith_cfg hm hb (c := .procMacroSpanFile)
  have ho := builtWith_cfg hm hb (c := .procMacroSpanLocation)
  simp only [Enabled] at hw hs hx hu hl hf ho
  constructor
  · rw [hw, hb.feature]; exact (·.1)
  · rw [hw, hs, hf, ho]; exact fun h => ⟨⟨h.1, fun _ => h.2⟩, ⟨h.1, .inl h.2⟩, h.1, .inl h.2⟩
  · rw [hw, hs, hx, hl]; exact fun h => ⟨.inl h, fun h' => ⟨h'.1, h'.2 h⟩⟩
  · rw [hw, hb.feature, ← Bool.not_eq_true, hx]; exact fun h1 h2 => ⟨h1, fun h3 => absurd h3 h2⟩
  · rw [hf, hb.feature]; exact (·.1)
  · rw [ho, hb.feature]; exact (·.1)
  · rw [Bool.eq_iff_iff, Bool.and_eq_true, hu, hx, hs]
    exact ⟨fun h => ⟨h.2.1, h.1, h.2.2⟩, fun h => ⟨h.2.1, h.1, h.2.2⟩⟩

/-- **C111.** With the `cfg`s that the script sets, whatever the compiler and the environment are, and whatever other
`cfg`s the user sets, the conditional definitions of the crate fit together: no name is defined twice, every name that is
used is defined, one of the alternatives is compiled, and no import is unused. -/
theorem C111_resolved {h : Host} {e : Env} (hm : (main h).result = some ()) (hb : BuiltWith h e) : Resolved e :=
  resolved (consistent hm hb)

theorem spanApi_has {h : Host} {t : Toolchain} (hr : RunBy h t) (hk : KeepsFeatures h t) (hs : SpanApi h) :
    t.allows h.rustcBootstrap .procMacroSpan ∧ ∀ m ∈ probed .span, t.Has [.procMacroSpan] m := by
  rcases hs with ⟨-, h1 | ⟨b, h1, h2⟩⟩
  · have := hr.compiles _ _ h1
    exact ⟨hk _ (this.1 _ (by simp [probeFeatures])), this.2⟩
  · have := hr.compiles _ _ h2
    rw [h1]
    exact ⟨this.1 _ (by simp [probeFeatures]), this.2⟩

theorem has_mono {t : Toolchain} {fs gs : List Feature} (hs : ∀ f ∈ fs, f ∈ gs) {m : Method} (h : t.Has fs m) : t.Has gs m :=
  h.imp id fun ⟨f, hf, h⟩ => ⟨f, hs f hf, h⟩

theorem stableApi_has {h : Host} {t : Toolchain} (hr : RunBy h t) {f : Probe} (hp : probeFeatures f = [])
    (h88 : ∀ m ∈ probed f, since m = some 88) (hs : StableApi h f) {m : Method} (hm : m ∈ probed f) (fs : List Feature) :
    t.Has fs m := by
  obtain ⟨h1, h2⟩ := hs
  rcases h2 with h2 | h2
  · exact .inl (hr.history m 88 (h88 m hm) h1 fun _ => h2)
  · have := (hr.compiles _ _ h2).2 m hm
    rw [hp] at this
    exact has_mono (by simp) this

/-- **C111**, the compiler's API: the crate turns on no feature that the compiler refuses, and calls no method that it
lacks. For a compiler that takes features away when `RUSTC_BOOTSTRAP` is set, see `C111_withdrawn`; the exempt API
also uses two methods that are not probed. -/
theorem C111_available {h : Host} {e : Env} {t : Toolchain} (hm : (main h).result = some ()) (hb : BuiltWith h e)
    (hr : RunBy h t) (hk : KeepsFeatures h t) (hx : h.semverExempt = true → Exempt t) : Available h t e := by
  have hc := consistent hm hb
  have hspan : e.cfg .procMacroSpan = true → SpanApi h := fun h1 => ((builtWith_cfg hm hb).mp h1).2
  have hsuper : e.cfg .superUnstable = true → e.cfg .procMacroSpan = true ∧ h.semverExempt = true := by
    intro h1
    have := hc.unstable
    rw [h1] at this
    have := Bool.and_eq_true_iff.mp this.symm
    exact ⟨this.2, (builtWith_cfg hm hb).mp this.1⟩
  have hfeat : e.cfg .procMacroSpan = true → ∀ f ∈ [Feature.procMacroSpan], f ∈ crateFeatures e := by
    intro h1; simp [crateFeatures, h1]
  constructor
  · intro f hf
    simp only [crateFeatures, List.mem_append, List.mem_ite_nil_right, Bool.or_eq_true, List.mem_singleton] at hf
    rcases hf with ⟨h1 | h1, rfl⟩ | ⟨h1, rfl⟩
    · exact (spanApi_has hr hk (hspan h1)).1
    · exact (spanApi_has hr hk (hspan (hsuper h1).1)).1
    · exact (hx (hsuper h1).2).1 _ (spanApi_has hr hk (hspan (hsuper h1).1)).1
  · intro d hd ha c m hn hcd
    have hre := reason_of hc hd ha hn hcd
    have hS : e.cfg .procMacroSpan = true → m ∈ probed .span → t.Has (crateFeatures e) m := fun h1 h2 =>
      has_mono (hfeat h1) ((spanApi_has hr hk (hspan h1)).2 m h2)
    have hO : SpanApi h → h.procMacro = true → m ∈ probed .span → t.Has (crateFeatures e) m := fun h1 h2 h3 =>
      hS ((builtWith_cfg hm hb).mpr ⟨h2, h1⟩) h3
    have hV : ∀ {c : Cfg} {n : Nat}, c ∉ [Cfg.fuzzing, .backtrace, .nightlyTesting, .buildProbe, .randomizeLayout] →
        (Enabled h c ↔ OlderThan h n) → (Cond.not (.cfg c)).eval e = true → since m = some n → n ≠ 88 →
        t.Has (crateFeatures e) m := by
      intro c n h1 h2 h3 h4 h5
      refine .inl (hr.history m n h4 (fun h6 => ?_) fun h6 => absurd h6 h5)
      simp only [Cond.eval, (builtWith_cfg hm hb h1).mpr (h2.mpr h6)] at h3
      cases h3
    have hU : e.cfg .superUnstable = true → ∀ f ∈ [Feature.procMacroSpan, .procMacroDefSite], f ∈ crateFeatures e := by
      intro h1; simp [crateFeatures, h1]
    cases m with
    | byteRange | join | subspan => exact hS hre (by decide)
    | start | «end» | line | column =>
      rcases (builtWith_cfg hm hb).mp hre with ⟨h1, h2 | h2⟩
      · exact hO h2 h1 (by decide)
      · exact stableApi_has hr rfl (by decide) h2 (by decide) _
    | file | localFile =>
      rcases (builtWith_cfg hm hb).mp hre with ⟨h1, h2 | h2⟩
      · exact hO h2 h1 (by decide)
      · exact stableApi_has hr rfl (by decide) h2 (by decide) _
    | sourceText => exact hV (c := .noSourceText) (by decide) Iff.rfl hre rfl (by decide)
    | byteCharacter => exact hV (c := .noLiteralByteCharacter) (by decide) Iff.rfl hre rfl (by decide)
    | cString => exact hV (c := .noLiteralCString) (by decide) Iff.rfl hre rfl (by decide)
    | isAvailable => exact hV (c := .noIsAvailable) (by decide) Iff.rfl hre rfl (by decide)
    | defSite =>
      have h1 := hx (hsuper hre).2
      exact has_mono (hU hre) h1.2.1
    | spanEq =>
      have h1 := hx (hsuper hre).2
      exact has_mono (hfeat (hsuper hre).1) h1.2.2

/-- **C111**, the assumption on `RUSTC_BOOTSTRAP` is needed: if the compiler has the unstable API without it, but refuses
the feature with its value, then the script has turned the feature on, and the crate is refused. -/
theorem C111_withdrawn {h : Host} {e : Env} {t : Toolchain} (hm : (main h).result = some ()) (hb : BuiltWith h e)
    (hp : h.procMacro = true) (hs : h.rustcStage = none) (hc : Compiles h none .span)
    (hn : ¬t.allows h.rustcBootstrap .procMacroSpan) : ¬Available h t e := by
  intro ha
  have : e.cfg .procMacroSpan = true := (builtWith_cfg hm hb).mpr ⟨hp, hs, .inl hc⟩
  exact hn (ha.features _ (by simp [crateFeatures, this]))

/-- **C111**, the second `compile_error!`: with `procmacro2_nightly_testing`, a crate that is to use the compiler's API
is refused exactly if its unstable part cannot be used. -/
theorem C111_nightly {h : Host} {e : Env} (hm : (main h).result = some ()) (hb : BuiltWith h e) :
    probeError e = true ↔ e.cfg .nightlyTesting = true ∧ h.procMacro = true ∧ ¬SpanApi h := by
  have hs := builtWith_cfg hm hb (c := .procMacroSpan)
  simp only [Enabled] at hs
  simp only [probeError, Bool.and_eq_true, Bool.not_eq_true', ← Bool.not_eq_true, hs, hb.feature]
  constructor
  · rintro ⟨⟨h1, h2⟩, h3⟩; exact ⟨h1, h2, fun h4 => h3 ⟨h2, h4⟩⟩
  · rintro ⟨h1, h2, h3⟩; exact ⟨⟨h1, h2⟩, fun h4 => h3 h4.2⟩

/-! ### Examples -/

/-- The `cfg`s that the script printed, and others. -/
def sampleEnv (h : Host) (others : List Cfg) : Env where
  cfg c := (cfgs (main h).lines).contains c || others.contains c
  procMacro := h.procMacro

theorem sampleEnv_built {h : Host} {others : List Cfg}
    (ho : ∀ c ∈ others, c ∈ [Cfg.fuzzing, .backtrace, .nightlyTesting, .buildProbe, .randomizeLayout]) :
    BuiltWith h (sampleEnv h others) := by
  refine ⟨rfl, fun c hc => ?_⟩
  have : c ∉ others := fun h => hc (ho c h)
  simp [sampleEnv, this]

/-- A stable compiler. -/
def sampleToolchain : Toolchain where
  status
    | .byteRange | .join | .subspan | .spanEq => .gated .procMacroSpan
    | .defSite => .gated .procMacroDefSite
    | _ => .stable
  allows b _ := b = some ['1']

theorem sample_runBy (b : Option Text) : RunBy { sampleHost with rustcBootstrap := b } sampleToolchain := by
  constructor
  · rintro b f ⟨argv, ⟨wr, ws, rc, od, dir, fl, -, -, -, -, -, -, ea⟩, hr⟩
    cases f with
    | span =>
      have hc : argv.contains (probeFile .span) = true := by
        rw [List.contains_iff_mem, ea]
        generalize probeFile .span = p
        simp only [List.mem_append, List.mem_cons]
        simp
      have hr : some (decide (b = some ['1']) || !argv.contains (probeFile .span)) = some true := hr
      rw [hc] at hr
      have hb : b = some ['1'] := by simpa using hr
      exact ⟨fun _ _ => hb, by
        intro m hm
        simp only [probed, probeFunctions, List.map, List.mem_cons, List.not_mem_nil, or_false] at hm
        rcases hm with rfl | rfl | rfl | rfl | rfl | rfl | rfl | rfl | rfl <;>
          first | exact .inl rfl | exact .inr ⟨_, .head _, rfl⟩⟩
    | location =>
      exact ⟨fun _ h => absurd h (by simp [probeFeatures]), by
        intro m hm
        simp only [probed, probeFunctions, List.map, List.mem_cons, List.not_mem_nil, or_false] at hm
        rcases hm with rfl | rfl | rfl | rfl <;> exact .inl rfl⟩
    | file =>
      exact ⟨fun _ h => absurd h (by simp [probeFeatures]), by
        intro m hm
        simp only [probed, probeFunctions, List.map, List.mem_cons, List.not_mem_nil, or_false] at hm
        rcases hm with rfl | rfl <;> exact .inl rfl⟩
  · intro m n hm _ _
    cases m <;> first | rfl | cases hm

theorem sample_keeps (b : Option Text) : KeepsFeatures { sampleHost with rustcBootstrap := b } sampleToolchain := by
  intro f h; cases h

/-- C111: without and with the unstable API, the latter when fuzzing -/
example : Resolved (sampleEnv sampleHost []) ∧ Available sampleHost sampleToolchain (sampleEnv sampleHost []) :=
  ⟨C111_resolved (by decide +kernel) (sampleEnv_built (by simp)),
    C111_available (by decide +kernel) (sampleEnv_built (by simp)) (sample_runBy none) (sample_keeps none)
      (fun h => by cases h)⟩

example :
    let h := { sampleHost with rustcBootstrap := some ['1'] }
    Resolved (sampleEnv h [.fuzzing]) ∧ Available h sampleToolchain (sampleEnv h [.fuzzing]) ∧
      crateFeatures (sampleEnv h [.fuzzing]) = [.procMacroSpan] := by
  refine ⟨C111_resolved (by decide +kernel) (sampleEnv_built (by simp)),
    C111_available (by decide +kernel) (sampleEnv_built (by simp)) (sample_runBy _) (sample_keeps _)
      (fun h => by cases h), by decide +kernel⟩

/-- C111: what is looked at in such a build -/
example : (sampleEnv sampleHost []).cfg .procMacroSpanLocation = true ∧
    (∃ d ∈ defs, d.file = .wrapper ∧ d.name = .start ∧ Active (sampleEnv sampleHost []) d) ∧
    ¬∃ d ∈ defs, d.file = .wrapper ∧ d.name = .eq ∧ Active (sampleEnv sampleHost []) d := by
  unfold Active
  decide +kernel

/-- C111: a nightly compiler with `RUSTC_BOOTSTRAP=-1` -/
example :
    let h := { sampleHost with rustcBootstrap := some ['-', '1'], run := fun _ _ => some true }
    ¬Available h ⟨fun _ => .stable, fun b _ => b ≠ some ['-', '1']⟩ (sampleEnv h []) := by
  refine C111_withdrawn (by decide +kernel) (sampleEnv_built (by simp)) rfl rfl ?_ (fun h => h rfl)
  exact ⟨_, ⟨_, _, _, _, _, _, .inr ⟨_, by decide, rfl, rfl⟩, .inl ⟨rfl, .inr rfl⟩, rfl, rfl,
    .inr ⟨rfl, by decide, by rintro ⟨d, hd⟩; have := congrArg List.getLast? hd; simp at this⟩,
    .inr ⟨_, by decide, rfl, (by decide : ["-C".toList, "opt-level=3".toList] ≠ []), by decide, by decide⟩, rfl⟩, rfl⟩

/-- C111: the second `compile_error!` -/
example : probeError (sampleEnv sampleHost [.nightlyTesting]) = true := by decide +kernel

end PM2.Props
