import Verif.Proof.Build
import Verif.Spec.Decide
/-! # C85–C88: the build script -/

namespace PM2.Props
open Spec PM2.Build

/-! ### The version of the compiler -/

/-- **C85.** The minor version that the script reads is the one that the compiler states. -/
theorem C85_minor (h : Host) (m : Nat) : (rustcMinorVersion h).result = some (some m) ↔ MinorVersion h m := by
  cases hr : h.rustc with
  | none =>
    unfold rustcMinorVersion
    rw [hr]
    refine ⟨fun hh => (by cases hh), ?_⟩
    rintro ⟨r, -, -, hr', -⟩
    rw [hr] at hr'
    cases hr'
  | some r =>
    rw [← minorVersion_iff hr]
    unfold rustcMinorVersion
    rw [hr]
    exact Option.some_inj

/-- **C85**, there is at most one such version. -/
theorem C85_unique {h : Host} {m n : Nat} (hm : MinorVersion h m) (hn : MinorVersion h n) : m = n := by
  have e := (C85_minor h m).mpr hm
  rw [(C85_minor h n).mpr hn] at e
  cases e
  rfl

theorem mem_main {h : Host} (hm : (main h).result = some ()) (l : Line) : l ∈ (main h).lines ↔
    l ∈ versionLines h ∨ (h.procMacro = false ∧ l = .rerunIfChanged "build.rs".toList) ∨
      h.procMacro = true ∧ l ∈ probeLines h := by
  cases hr : h.rustc with
  | none => rw [main_none hr] at hm; cases hm
  | some r =>
    rw [main_eq hr] at hm ⊢
    cases hp : h.procMacro with
    | false => rw [tail_off hp]; simp
    | true =>
      have hb : ∀ f b, Probed h f b → ¬Broken h f b := by
        intro f b h1 h2
        rw [tail_broken hr h1 h2] at hm
        cases hm
      rw [tail_ok hr hp hb]
      simp

theorem mem_checkCfgs (l : Line) : l ∈ checkCfgs.lines ↔ ∃ c, l = .checkCfg c := by
  constructor
  · intro hl
    have hall : ∀ l ∈ checkCfgs.lines, (match l with | .checkCfg _ => true | _ => false) = true := by decide
    have := hall l hl
    cases l with
    | checkCfg c => exact ⟨c, rfl⟩
    | cfg _ => cases this
    | rerunIfChanged _ => cases this
    | rerunIfEnvChanged _ => cases this
  · rintro ⟨c, rfl⟩
    cases c <;> decide

/-- **C85**, declarations: a compiler that is not known to be older than 1.80, and no other, is told about every
`cfg`. -/
theorem C85_check {h : Host} (hm : (main h).result = some ()) (c : Cfg) :
    Line.checkCfg c ∈ (main h).lines ↔ ¬OlderThan h 80 := by
  rw [mem_main hm]
  simp only [versionLines, probeLines, spanLines, List.mem_append, mem_lineIf]
  by_cases ho : OlderThan h 80
  · simp [ho]
  · have := (mem_checkCfgs (.checkCfg c)).mpr ⟨c, rfl⟩
    simp [ho, this]

/-! ### The `cfg`s -/

theorem mem_cfgs {ls : List Line} {c : Cfg} : c ∈ cfgs ls ↔ Line.cfg c ∈ ls := by
  unfold cfgs
  rw [List.mem_filterMap]
  constructor
  · rintro ⟨l, hl, e⟩
    cases l <;> simp at e
    subst e
    exact hl
  · intro hl
    exact ⟨_, hl, rfl⟩

theorem name_inj {c d : Cfg} (e : c.name = d.name) : c = d := by
  have key : ∀ c : Cfg, (checkCfgs.lines.find? (fun l => l.text = (Line.checkCfg c).text)) = some (.checkCfg c) := by
    intro c
    cases c <;> decide +kernel
  have hc := key c
  have hd := key d
  have et : (Line.checkCfg c).text = (Line.checkCfg d).text :=
    congrArg (fun n => "cargo:rustc-check-cfg=cfg(".toList ++ n ++ [')']) e
  rw [et, hd] at hc
  cases hc
  rfl

/-- What the four kinds of lines start with. -/
def opening : Fin 4 → Text
  | 0 => "cargo:rustc-check-cfg=cfg(".toList
  | 1 => "cargo:rustc-cfg=".toList
  | 2 => "cargo:rerun-if-changed=".toList
  | 3 => "cargo:rerun-if-env-changed=".toList

def lineKind : Line → Fin 4
  | .checkCfg _ => 0
  | .cfg _ => 1
  | .rerunIfChanged _ => 2
  | .rerunIfEnvChanged _ => 3

/-- And what follows. -/
def closing : Line → Text
  | .checkCfg c => c.name ++ [')']
  | .cfg c => c.name
  | .rerunIfChanged p => p
  | .rerunIfEnvChanged v => v

theorem text_eq (l : Line) : l.text = opening (lineKind l) ++ closing l := by
  cases l with
  | checkCfg c => exact List.append_assoc _ _ _
  | cfg _ => rfl
  | rerunIfChanged _ => rfl
  | rerunIfEnvChanged _ => rfl

theorem lineKind_inj {l l' : Line} (e : l.text = l'.text) : lineKind l = lineKind l' := by
  have key : ∀ i j, i ≠ j → ∃ k : Fin 16, (opening i)[k.val]? ≠ (opening j)[k.val]? := by decide +kernel
  have long : ∀ i, 16 ≤ (opening i).length := by decide +kernel
  refine Classical.byContradiction fun hne => ?_
  obtain ⟨k, hk⟩ := key _ _ hne
  apply hk
  have h1 := long (lineKind l)
  have h2 := long (lineKind l')
  have e1 : l.text[k.val]? = (opening (lineKind l))[k.val]? := by
    rw [text_eq]; exact List.getElem?_append_left (by omega)
  have e2 : l'.text[k.val]? = (opening (lineKind l'))[k.val]? := by
    rw [text_eq]; exact List.getElem?_append_left (by omega)
  rw [← e1, ← e2, e]

/-- **C86**, lines that are different are printed differently. -/
theorem C86_text {l l' : Line} (e : l.text = l'.text) : l = l' := by
  have ho := lineKind_inj e
  rw [text_eq, text_eq, ho] at e
  have ec := List.append_cancel_left e
  cases l <;> cases l' <;> simp only [lineKind] at ho <;> try contradiction
  · exact congrArg _ (name_inj (List.append_cancel_right ec))
  · exact congrArg _ (name_inj ec)
  · exact congrArg _ ec
  · exact congrArg _ ec

section
open Classical

/-- **C86.** If the script ends, then the `cfg`s that it sets are those that its specification enables. -/
theorem C86_cfgs {h : Host} (hm : (main h).result = some ()) (c : Cfg) :
    c ∈ cfgs (main h).lines ↔ Enabled h c := by
  rw [mem_cfgs, mem_main hm]
  have hc : Line.cfg c ∉ checkCfgs.lines := by
    rw [mem_checkCfgs]; rintro ⟨_, e⟩; cases e
  have hc' : Line.cfg c ∉ (if OlderThan h 80 then [] else checkCfgs.lines) := by
    split
    · simp
    · exact hc
  simp only [versionLines, probeLines, spanLines, List.mem_append, mem_lineIf, hc']
  cases c <;> simp [Enabled]

theorem cfgs_append (a b : List Line) : cfgs (a ++ b) = cfgs a ++ cfgs b := List.filterMap_append

theorem cfgs_lineIf (p : Prop) (c : Cfg) : (cfgs (lineIf p (.cfg c))).Sublist [c] := by
  unfold lineIf
  split
  · exact List.Sublist.refl _
  · exact List.nil_sublist _

theorem cfgs_lineIf_changed (p : Prop) (t : Text) : cfgs (lineIf p (.rerunIfChanged t)) = [] := by
  unfold lineIf
  split <;> rfl

theorem cfgs_lineIf_env (p : Prop) (t : Text) : cfgs (lineIf p (.rerunIfEnvChanged t)) = [] := by
  unfold lineIf
  split <;> rfl

theorem cfgs_version (h : Host) : (cfgs (versionLines h)).Sublist
    [.semverExempt, .spanLocations, .noIsAvailable, .noSourceText, .noLiteralByteCharacter, .noLiteralCString] := by
  have e : cfgs (if OlderThan h 80 then [] else checkCfgs.lines) = [] := by
    split <;> rfl
  unfold versionLines
  simp only [cfgs_append]
  rw [e]
  exact (((((cfgs_lineIf _ _).append (cfgs_lineIf _ _)).append (cfgs_lineIf _ _)).append
    (cfgs_lineIf _ _)).append (cfgs_lineIf _ _)).append (cfgs_lineIf _ _)

theorem cfgs_probe (h : Host) : (cfgs (probeLines h)).Sublist
    [.wrapProcMacro, .procMacroSpan, .procMacroSpanLocation, .procMacroSpanFile, .superUnstable] := by
  unfold probeLines spanLines
  simp only [cfgs_append, cfgs_lineIf_changed, cfgs_lineIf_env, List.append_nil, List.nil_append]
  exact ((((cfgs_lineIf _ _).append (cfgs_lineIf _ _)).append (cfgs_lineIf _ _)).append
    (cfgs_lineIf _ _)).append (cfgs_lineIf _ _)

/-- **C86**, no `cfg` is set twice. -/
theorem C86_once {h : Host} (hm : (main h).result = some ()) : (cfgs (main h).lines).Nodup := by
  cases hr : h.rustc with
  | none => rw [main_none hr] at hm; cases hm
  | some r =>
    rw [main_eq hr] at hm ⊢
    rw [cfgs_append]
    cases hp : h.procMacro with
    | false =>
      rw [tail_off hp]
      have e : cfgs [.rerunIfChanged "build.rs".toList] = [] := rfl
      rw [e, List.append_nil]
      exact (cfgs_version h).nodup (by decide)
    | true =>
      have hb : ∀ f b, Probed h f b → ¬Broken h f b := by
        intro f b h1 h2
        rw [tail_broken hr h1 h2] at hm
        cases hm
      rw [tail_ok hr hp hb]
      exact ((cfgs_version h).append (cfgs_probe h)).nodup (by decide)

/-- **C86**, the `compile_error!` at the top of the crate: it is compiled exactly if the crate is built with
`procmacro2_semver_exempt`, the script was not, and the compiler's API is wanted. -/
theorem C86_guard {h : Host} (hm : (main h).result = some ()) (semverExempt : Bool) :
    compileError semverExempt (main h).lines = true ↔
      semverExempt = true ∧ h.semverExempt = false ∧ h.procMacro = true := by
  have hs := C86_cfgs hm .semverExempt
  have hw := C86_cfgs hm .wrapProcMacro
  have hu := C86_cfgs hm .superUnstable
  simp only [Enabled] at hs hw hu
  unfold compileError
  simp only [Bool.and_eq_true, Bool.or_eq_true, List.contains_iff_mem, Bool.not_eq_true', ← Bool.not_eq_true, hs, hw, hu]
  cases semverExempt <;> cases h.semverExempt <;> cases h.procMacro <;> simp

/-- **C86**, what the crate relies on when it is compiled: `proc_macro` is only wrapped if it is linked, unstable
methods are only called where it is wrapped and with the stable ones, and the exempt API has locations. -/
theorem C86_implied {h : Host} (hm : (main h).result = some ()) :
    (.wrapProcMacro ∈ cfgs (main h).lines → h.procMacro = true) ∧
    (.procMacroSpan ∈ cfgs (main h).lines → .wrapProcMacro ∈ cfgs (main h).lines ∧
      .procMacroSpanLocation ∈ cfgs (main h).lines ∧ .procMacroSpanFile ∈ cfgs (main h).lines) ∧
    (.procMacroSpanLocation ∈ cfgs (main h).lines ∨ .procMacroSpanFile ∈ cfgs (main h).lines → h.procMacro = true) ∧
    (.superUnstable ∈ cfgs (main h).lines ↔
      .semverExempt ∈ cfgs (main h).lines ∧ .procMacroSpan ∈ cfgs (main h).lines) ∧
    (.semverExempt ∈ cfgs (main h).lines → .spanLocations ∈ cfgs (main h).lines) := by
  simp only [C86_cfgs hm, Enabled]
  refine ⟨fun e => e.1, fun e => ⟨⟨e.1, fun _ => e.2⟩, ⟨e.1, .inl e.2⟩, e.1, .inl e.2⟩,
    fun e => e.elim (·.1) (·.1), ⟨fun e => ⟨e.2.1, e.1, e.2.2⟩, fun e => ⟨e.2.1, e.1, e.2.2⟩⟩, fun e => .inl e⟩

/-! ### Running the script again -/

/-- **C87.** The script asks to be run again when a file changes exactly for the files of the probes that it compiles,
or for itself without them. -/
theorem C87_files {h : Host} (hm : (main h).result = some ()) (path : Text) :
    Line.rerunIfChanged path ∈ (main h).lines ↔
      (h.procMacro = false ∧ path = "build.rs".toList) ∨ ∃ f b, Probed h f b ∧ path = probeFile f := by
  rw [mem_main hm]
  have hc : Line.rerunIfChanged path ∉ (if OlderThan h 80 then [] else checkCfgs.lines) := by
    split
    · simp
    · rw [mem_checkCfgs]; rintro ⟨_, e⟩; cases e
  simp only [versionLines, probeLines, spanLines, List.mem_append, mem_lineIf, hc]
  simp only [Line.rerunIfChanged.injEq, reduceCtorEq, and_false, or_false, false_or]
  constructor
  · rintro (⟨h1, h2⟩ | ⟨h1, (((⟨h2, e⟩ | ⟨⟨h2, h3, h4⟩, e⟩) | ⟨h2, e⟩) | ⟨h2, e⟩)⟩)
    · exact .inl ⟨h1, h2⟩
    · exact .inr ⟨.span, false, ⟨h1, h2, trivial⟩, e⟩
    · exact .inr ⟨.span, true, ⟨h1, h2, h3, h4⟩, e⟩
    · exact .inr ⟨_, _, h2, e⟩
    · exact .inr ⟨_, _, h2, e⟩
  · rintro (⟨h1, h2⟩ | ⟨f, b, hp, e⟩)
    · exact .inl ⟨h1, h2⟩
    · refine .inr ⟨hp.1, ?_⟩
      cases f with
      | span => exact .inl (.inl (.inl ⟨hp.2.1, e⟩))
      | location =>
        cases b with
        | false => exact hp.2.2.elim
        | true => exact .inl (.inr ⟨hp, e⟩)
      | file =>
        cases b with
        | false => exact hp.2.2.elim
        | true => exact .inr ⟨hp, e⟩

theorem probeFile_inj {f g : Probe} (e : probeFile f = probeFile g) : f = g := by
  cases f <;> cases g <;> first | rfl | exact absurd e (by decide)

/-- **C86**, what is printed: the names are those that the sources test, and no line is broken. -/
theorem C86_printed {h : Host} (hm : (main h).result = some ()) :
    (∀ name, "cargo:rustc-cfg=".toList ++ name ∈ (main h).lines.map Line.text ↔
      ∃ c, sourceName c = name ∧ Enabled h c) ∧
    (∀ name, "cargo:rustc-check-cfg=cfg(".toList ++ name ++ ")".toList ∈ (main h).lines.map Line.text ↔
      ¬OlderThan h 80 ∧ ∃ c, sourceName c = name) ∧
    ∀ t ∈ (main h).lines.map Line.text, '\n' ∉ t := by
  have hn : ∀ c, sourceName c = c.name := by intro c; cases c <;> rfl
  have hname : ∀ c : Cfg, '\n' ∉ c.name := by intro c; cases c <;> decide +kernel
  refine ⟨fun name => ?_, fun name => ?_, ?_⟩
  · rw [List.mem_map]
    constructor
    · rintro ⟨l, hl, e⟩
      cases l with
      | cfg c =>
        have en : c.name = name := List.append_cancel_left e
        have he : Enabled h c := (C86_cfgs hm c).mp (mem_cfgs.mpr hl)
        exact ⟨c, (hn c).trans en, he⟩
      | checkCfg c => exact absurd (show some 'h' = some 'f' from congrArg (·[13]?) e) (by decide)
      | rerunIfChanged p => exact absurd (show some 'e' = some 'u' from congrArg (·[7]?) e) (by decide)
      | rerunIfEnvChanged p => exact absurd (show some 'e' = some 'u' from congrArg (·[7]?) e) (by decide)
    · rintro ⟨c, rfl, he⟩
      exact ⟨.cfg c, mem_cfgs.mp ((C86_cfgs hm c).mpr he), by rw [hn c]; rfl⟩
  · rw [List.mem_map]
    constructor
    · rintro ⟨l, hl, e⟩
      cases l with
      | checkCfg c =>
        have en : c.name = name := List.append_cancel_left (List.append_cancel_right e)
        exact ⟨(C85_check hm c).mp hl, c, (hn c).trans en⟩
      | cfg c => exact absurd (show some 'f' = some 'h' from congrArg (·[13]?) e) (by decide)
      | rerunIfChanged p => exact absurd (show some 'e' = some 'u' from congrArg (·[7]?) e) (by decide)
      | rerunIfEnvChanged p => exact absurd (show some 'e' = some 'u' from congrArg (·[7]?) e) (by decide)
    · rintro ⟨ho, c, rfl⟩
      exact ⟨.checkCfg c, (C85_check hm c).mpr ho, by rw [hn c]; rfl⟩
  · intro t ht
    rw [List.mem_map] at ht
    obtain ⟨l, hl, rfl⟩ := ht
    rw [text_eq, List.mem_append]
    have ho : ∀ i, '\n' ∉ opening i := by decide +kernel
    rintro (hl' | hl')
    · exact ho _ hl'
    · cases l with
      | checkCfg c =>
        rw [show closing (.checkCfg c) = c.name ++ [')'] from rfl, List.mem_append] at hl'
        exact hl'.elim (hname c) (by decide)
      | cfg c => exact hname c hl'
      | rerunIfChanged p =>
        rcases (C87_files hm p).mp hl with ⟨-, rfl⟩ | ⟨f, -, -, rfl⟩
        · revert hl'; decide
        · revert hl'; cases f <;> decide
      | rerunIfEnvChanged v =>
        rw [mem_main hm] at hl
        have hc : Line.rerunIfEnvChanged v ∉ checkCfgs.lines := by
          rw [mem_checkCfgs]; rintro ⟨_, e⟩; cases e
        have hv : v = "RUSTC_BOOTSTRAP".toList := by
          simp only [versionLines, probeLines, spanLines, List.mem_append, mem_lineIf, Line.rerunIfEnvChanged.injEq, reduceCtorEq,
            and_false, or_false, false_or] at hl
          rcases hl with h1 | ⟨-, -, h1⟩
          · split at h1
            · cases h1
            · exact absurd h1 hc
          · exact h1
        subst hv
        revert hl'; decide

/-- **C87**, other files: whatever happens to a probe whose file the script does not ask about, it prints the same. -/
theorem C87_other_files {h : Host} (hm : (main h).result = some ()) (run : Option Text → List Text → Option Bool)
    (same : ∀ f, .rerunIfChanged (probeFile f) ∈ (main h).lines →
      ∀ argv, ProbeCommand h f argv → ∀ b, run b argv = h.run b argv) :
    main { h with run := run } = main h := by
  obtain ⟨r, hr⟩ : ∃ r, h.rustc = some r := by
    cases hr : h.rustc with
    | none => rw [main_none hr] at hm; cases hm
    | some r => exact ⟨r, rfl⟩
  have hr' : ({ h with run := run } : Host).rustc = some r := hr
  have hmv : minor { h with run := run } r = minor h r := rfl
  have hv : versionLines { h with run := run } = versionLines h := rfl
  by_cases hp : h.procMacro = false
  · have hp' : ({ h with run := run } : Host).procMacro = false := hp
    rw [main_eq hr, main_eq hr', tail_off hp, tail_off hp', hv]
  · have hp : h.procMacro = true := by simpa using hp
    have hp' : ({ h with run := run } : Host).procMacro = true := hp
    have hcomp : ∀ {f b}, Probed h f b → ∀ v, Compiles { h with run := run } v f ↔ Compiles h v f := by
      intro f b hpr v
      have hs := same f ((C87_files hm _).mpr (.inr ⟨f, b, hpr, rfl⟩))
      constructor
      · rintro ⟨argv, hc, e⟩; exact ⟨argv, hc, by rw [← hs argv hc v]; exact e⟩
      · rintro ⟨argv, hc, e⟩; exact ⟨argv, hc, (hs argv hc v).trans e⟩
    have hspan : h.rustcStage = none → ∀ v, Compiles { h with run := run } v .span ↔ Compiles h v .span :=
      fun hs => hcomp (b := false) ⟨hp, hs, trivial⟩
    have hapi : SpanApi { h with run := run } ↔ SpanApi h := by
      unfold SpanApi
      constructor
      · rintro ⟨hs, e⟩; exact ⟨hs, e.imp (hspan hs _).mp fun ⟨b, hb, e⟩ => ⟨b, hb, (hspan hs _).mp e⟩⟩
      · rintro ⟨hs, e⟩; exact ⟨hs, e.imp (hspan hs _).mpr fun ⟨b, hb, e⟩ => ⟨b, hb, (hspan hs _).mpr e⟩⟩
    have hprobed : ∀ f b, Probed { h with run := run } f b ↔ Probed h f b := by
      intro f b
      unfold Probed
      refine and_congr_right fun _ => and_congr_right fun hs => ?_
      cases f <;> cases b <;> simp only
      · exact and_congr_right fun _ => not_congr (hspan hs _)
      · exact and_congr_left fun _ => not_congr hapi
      · exact and_congr_left fun _ => not_congr hapi
    have hstable : ∀ f, f ≠ .span →
        ((SpanApi { h with run := run } ∨ StableApi { h with run := run } f) ↔ (SpanApi h ∨ StableApi h f)) := by
      intro f hf
      by_cases ha : SpanApi h
      · exact iff_of_true (.inl (hapi.mpr ha)) (.inl ha)
      · refine or_congr hapi (and_congr_right fun ho => ?_)
        by_cases hs : h.rustcStage = none
        · refine or_congr Iff.rfl (hcomp (b := true) ⟨hp, hs, ?_⟩ _)
          cases f with
          | span => exact absurd rfl hf
          | location => exact ⟨ha, ho⟩
          | file => exact ⟨ha, ho⟩
        · exact iff_of_true (.inl hs) (.inl hs)
    have hcons : Considered { h with run := run } ↔ Considered h := by
      unfold Considered
      refine and_congr (not_congr (and_congr_right fun hs => hspan hs _)) (imp_congr Iff.rfl hapi)
    have hsl : spanLines { h with run := run } = spanLines h := by
      unfold spanLines
      have e : (({ h with run := run } : Host).rustcStage = none ∧ ({ h with run := run } : Host).rustcBootstrap ≠ none ∧
          ¬Compiles { h with run := run } none .span) = (h.rustcStage = none ∧ h.rustcBootstrap ≠ none ∧
          ¬Compiles h none .span) :=
        propext (and_congr_right fun hs => and_congr_right fun _ => not_congr (hspan hs _))
      rw [e]
    have hb : ∀ f b, Probed h f b → ¬Broken h f b := by
      intro f b h1 h2
      rw [main_eq hr, tail_broken hr h1 h2] at hm
      cases hm
    have hpl : probeLines { h with run := run } = probeLines h := by
      unfold probeLines
      rw [hsl, propext (hstable .location (by simp)), propext (hstable .file (by simp)), propext (hprobed _ _),
        propext (hprobed _ _), propext hcons, propext hapi]
    rw [main_eq hr, main_eq hr', tail_ok hr hp hb,
      tail_ok hr' hp' (fun f b h1 h2 => hb f b ((hprobed f b).mp h1) h2), hpl, hv]

/-- **C87**, `RUSTC_BOOTSTRAP`: if the script does not ask to be run again when it changes, then no value of it, or its
absence, gives other `cfg`s. This is for compilers for which the value `1` allows every unstable feature, and which
do not look at it for stable ones. -/
theorem C87_bootstrap {h : Host} (hm : (main h).result = some ()) {bootstrap : Option Text}
    (hm' : (main { h with rustcBootstrap := bootstrap }).result = some ())
    (unlocks : ∀ b, Compiles h b .span → Compiles h (some ['1']) .span)
    (stable : ∀ f, f ≠ .span → ∀ b b', Compiles h b f → Compiles h b' f)
    (quiet : .rerunIfEnvChanged "RUSTC_BOOTSTRAP".toList ∉ (main h).lines) (c : Cfg) :
    c ∈ cfgs (main { h with rustcBootstrap := bootstrap }).lines ↔ c ∈ cfgs (main h).lines := by
  rw [C86_cfgs hm, C86_cfgs hm']
  by_cases hp : h.procMacro = true
  · have hq : ¬Considered h := by
      intro hc
      refine quiet ((mem_main hm _).mpr (.inr (.inr ⟨hp, ?_⟩)))
      simp only [probeLines, List.mem_append, mem_lineIf]
      exact .inr ⟨hc, trivial⟩
    have hapi : SpanApi { h with rustcBootstrap := bootstrap } ↔ SpanApi h := by
      by_cases h1 : h.rustcStage = none ∧ Compiles h none .span
      · exact iff_of_true ⟨h1.1, .inl h1.2⟩ ⟨h1.1, .inl h1.2⟩
      · have h2 : h.rustcBootstrap = some ['1'] ∧ ¬SpanApi h :=
          Classical.byContradiction fun h2 => hq ⟨h1, fun e => Classical.byContradiction fun e' => h2 ⟨e, e'⟩⟩
        refine iff_of_false ?_ h2.2
        rintro ⟨hs, e | ⟨b, -, e⟩⟩
        · exact h1 ⟨hs, e⟩
        · exact h2.2 ⟨hs, .inr ⟨_, h2.1, unlocks _ e⟩⟩
    have hst : ∀ f, f ≠ .span → (StableApi { h with rustcBootstrap := bootstrap } f ↔ StableApi h f) := fun f hf =>
      and_congr_right fun _ => or_congr Iff.rfl ⟨stable f hf _ _, stable f hf _ _⟩
    cases c <;> simp only [Enabled, hapi, hst .location (by simp), hst .file (by simp)] <;> exact Iff.rfl
  · cases c <;> simp only [Enabled, hp, false_and, Bool.false_eq_true] <;> exact Iff.rfl

/-! ### Commands and failures -/

/-- **C88.** There is one command for a probe, and it has a program. `do_compile_probe` gives whether that command
succeeds, with `RUSTC_BOOTSTRAP` in its environment only if asked for. -/
theorem C88_command {h : Host} {rustc outDir : Text} (hr : h.rustc = some rustc) (ho : h.outDir = some outDir)
    (f : Probe) : ∃ argv, argv ≠ [] ∧ (∀ argv', ProbeCommand h f argv' ↔ argv' = argv) ∧
      ∀ b, ¬Broken h f b → ((doCompileProbe h f b).result = some true ↔
        h.run (if b then h.rustcBootstrap else none) argv = some true) ∧
        (doCompileProbe h f b).result ≠ none := by
  refine ⟨probeCommand h rustc outDir f, by simp [probeCommand], fun argv' => ?_, fun b hb => ?_⟩
  · rw [probeCommand_iff]
    constructor
    · rintro ⟨r, o, e1, e2, rfl⟩
      cases hr.symm.trans e1
      cases ho.symm.trans e2
      rfl
    · rintro rfl
      exact ⟨_, _, hr, ho, rfl⟩
  · rw [doCompileProbe_eq hr, if_neg hb, ← compiles_iff hr ho]
    simp

/-- **C88**, failures: the script fails exactly if it is not told the compiler, or something goes wrong with a probe
that it compiles. Errors of the compiler do not make it fail. -/
theorem C88_exit (h : Host) :
    (main h).result = none ↔ h.rustc = none ∨ ∃ f b, Probed h f b ∧ Broken h f b := by
  cases hr : h.rustc with
  | none => rw [main_none hr]; simp
  | some r =>
    rw [main_eq hr]
    constructor
    · intro e
      refine .inr (Classical.byContradiction fun hn => ?_)
      have hb : ∀ f b, Probed h f b → ¬Broken h f b := fun f b h1 h2 => hn ⟨f, b, h1, h2⟩
      cases hp : h.procMacro with
      | false => rw [tail_off hp] at e; cases e
      | true => rw [tail_ok hr hp hb] at e; cases e
    · rintro (e | ⟨f, b, h1, h2⟩)
      · cases e
      · exact tail_broken hr h1 h2

end

/-! ### Examples -/

/-- A stable compiler, 1.90, that knows all of the API, with all features. -/
def sampleHost : Host where
  semverExempt := false
  spanLocations := true
  procMacro := true
  linux := true
  rustc := some "rustc".toList
  outDir := some "out".toList
  rustcStage := none
  rustcBootstrap := none
  rustcWrapper := some "sccache".toList
  rustcWorkspaceWrapper := some []
  target := none
  encodedRustflags := some "-C\x1fopt-level=3".toList
  version _ := some (bytesOf "rustc 1.90.0 (1159e78c4 2025-09-14)".toList)
  createDir _ _ := none
  removeDir _ _ := some ⟨.other, some 39⟩
  run b argv := some (b = some ['1'] || !argv.contains (probeFile .span))

/-- C85 -/
example : MinorVersion sampleHost 90 := (C85_minor _ _).mp (by decide +kernel)

/-- C86: without `RUSTC_BOOTSTRAP` -/
example : (main sampleHost).result = some () ∧ cfgs (main sampleHost).lines =
    [.spanLocations, .wrapProcMacro, .procMacroSpanLocation, .procMacroSpanFile] := by decide +kernel

example : "cargo:rustc-cfg=span_locations".toList ∈ (main sampleHost).lines.map Line.text :=
  ((C86_printed (by decide +kernel)).1 "span_locations".toList).mpr ⟨.spanLocations, rfl, .inr rfl⟩

/-- C86: with it -/
example : cfgs (main { sampleHost with rustcBootstrap := some ['1'], semverExempt := true }).lines =
    [.semverExempt, .spanLocations, .wrapProcMacro, .procMacroSpan, .procMacroSpanLocation, .procMacroSpanFile,
      .superUnstable] := by decide +kernel

/-- C86: a compiler of which nothing is known, and one without the API -/
example : cfgs (main { sampleHost with version := fun _ => none, run := fun _ _ => none }).lines =
    [.spanLocations, .wrapProcMacro] := by decide +kernel

example : cfgs (main { sampleHost with version := fun _ => some (bytesOf "rustc 1.56.1".toList) }).lines =
    [.spanLocations, .noIsAvailable, .noSourceText, .noLiteralByteCharacter, .noLiteralCString, .wrapProcMacro] := by
  decide +kernel

/-- C86: the `compile_error!` -/
example : compileError true (main sampleHost).lines = true :=
  (C86_guard (by decide +kernel) true).mpr ⟨rfl, rfl, rfl⟩

/-- C87: a compiler without the unstable API does not ask for `RUSTC_BOOTSTRAP=1` again -/
example (bootstrap : Option Text) (c : Cfg) :
    let h : Host := { sampleHost with
      rustcBootstrap := some ['1'], run := fun _ argv => some (!argv.contains (probeFile .span)) }
    (main { h with rustcBootstrap := bootstrap }).result = some () →
    (c ∈ cfgs (main { h with rustcBootstrap := bootstrap }).lines ↔ c ∈ cfgs (main h).lines) := by
  intro h hm'
  exact C87_bootstrap (by decide +kernel) hm' (fun _ e => e) (fun _ _ _ _ e => e) (by decide +kernel) c

/-- C88: the command -/
example : ProbeCommand sampleHost .file (["sccache", "rustc", "--cfg=procmacro2_build_probe", "--edition=2021",
    "--crate-name=proc_macro2", "--crate-type=lib", "--cap-lints=allow", "--emit=dep-info,metadata", "--out-dir",
    "out/probe", "src/probe/proc_macro_span_file.rs", "-C", "opt-level=3"].map String.toList) :=
  probeCommand_iff.mpr ⟨"rustc".toList, "out".toList, rfl, rfl, by decide +kernel⟩

/-- C88: a failure -/
example : (main { sampleHost with outDir := none }).result = none :=
  (C88_exit _).mpr (.inr ⟨.span, false, ⟨rfl, rfl, trivial⟩, .inl rfl⟩)

end PM2.Props
