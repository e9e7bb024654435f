import Verif.Spec.Build
import Verif.Proof.Utf8
/-! # The build script: its parts -/

namespace PM2.Build
open Spec

/-! ### Texts -/

theorem intercalate_one (c : Char) (p : Text) : [c].intercalate [p] = p := by
  simp [List.intercalate, List.intersperse]

theorem intercalate_cons (c : Char) (p q : Text) (ps : List Text) :
    [c].intercalate (p :: q :: ps) = p ++ c :: [c].intercalate (q :: ps) := by
  simp [List.intercalate, List.intersperse]

theorem pieces_cons (c x : Char) (xs : Text) :
    pieces c (x :: xs) =
      if x = c then [] :: pieces c xs else (x :: (split c xs).1) :: (split c xs).2 := by
  unfold pieces
  rw [split]
  by_cases h : x = c
  · simp only [if_pos h]
  · simp only [if_neg h]

theorem pieces_intercalate (c : Char) (s : Text) : [c].intercalate (pieces c s) = s := by
  induction s with
  | nil => exact intercalate_one c []
  | cons x xs ih =>
    rw [pieces_cons]
    split
    · rename_i h
      unfold pieces at ih ⊢
      rw [intercalate_cons, ih, h]; rfl
    · unfold pieces at ih
      revert ih
      generalize (split c xs).1 = p
      cases (split c xs).2 with
      | nil => intro ih; rw [intercalate_one] at ih ⊢; rw [ih]
      | cons q qs => intro ih; rw [intercalate_cons] at ih ⊢; rw [← ih]; rfl

theorem pieces_free (c : Char) (s : Text) : ∀ p ∈ pieces c s, c ∉ p := by
  induction s with
  | nil => simp [pieces, split]
  | cons x xs ih =>
    rw [pieces_cons]
    split
    · intro p hp
      rcases List.mem_cons.mp hp with rfl | hp
      · simp
      · exact ih p hp
    · rename_i h
      intro p hp
      rcases List.mem_cons.mp hp with rfl | hp
      · simp only [List.mem_cons, not_or]
        exact ⟨fun e => h e.symm, ih _ (by simp [pieces])⟩
      · exact ih p (by simp [pieces, hp])

/-- A text without the separator, up to the first one. -/
theorem split_first {c : Char} {p q s t : Text} (hp : c ∉ p) (hq : c ∉ q) (h : p ++ c :: s = q ++ c :: t) :
    p = q ∧ s = t := by
  induction p generalizing q with
  | nil =>
    cases q with
    | nil => simpa using h
    | cons y q => simp at h; simp [h.1] at hq
  | cons x p ih =>
    cases q with
    | nil => simp at h; simp [h.1] at hp
    | cons y q =>
      simp only [List.cons_append, List.cons.injEq] at h
      obtain ⟨e, e'⟩ := ih (fun hm => hp (by simp [hm])) (fun hm => hq (by simp [hm])) h.2
      exact ⟨by rw [h.1, e], e'⟩

theorem intercalate_inj {c : Char} {ps qs : List Text} (hp : ∀ p ∈ ps, c ∉ p) (hq : ∀ q ∈ qs, c ∉ q)
    (hp0 : ps ≠ []) (hq0 : qs ≠ []) (h : [c].intercalate ps = [c].intercalate qs) : ps = qs := by
  induction ps generalizing qs with
  | nil => exact absurd rfl hp0
  | cons p ps ih =>
    cases qs with
    | nil => exact absurd rfl hq0
    | cons q qs =>
      cases ps with
      | nil =>
        cases qs with
        | nil => rw [intercalate_one, intercalate_one] at h; rw [h]
        | cons q' qs =>
          rw [intercalate_one, intercalate_cons] at h
          exact absurd (by rw [h]; simp) (hp p (by simp))
      | cons p' ps =>
        cases qs with
        | nil =>
          rw [intercalate_one, intercalate_cons] at h
          exact absurd (by rw [← h]; simp) (hq q (by simp))
        | cons q' qs =>
          rw [intercalate_cons, intercalate_cons] at h
          obtain ⟨e, e'⟩ := split_first (hp p (by simp)) (hq q (by simp)) h
          rw [e, ih (fun p h => hp p (List.mem_cons_of_mem _ h)) (fun q h => hq q (List.mem_cons_of_mem _ h))
            (by simp) (by simp) e']

theorem pieces_eq {c : Char} {s : Text} {ps : List Text} (h0 : ps ≠ []) (hp : ∀ p ∈ ps, c ∉ p)
    (h : [c].intercalate ps = s) : pieces c s = ps :=
  intercalate_inj (pieces_free c s) hp (by simp [pieces]) h0 (by rw [pieces_intercalate, h])

/-! ### Numbers -/

theorem le_foldl (ds : Text) : ∀ n, n ≤ ds.foldl (fun n c => n * 10 + (c.toNat - 48)) n := by
  induction ds with
  | nil => intro n; exact Nat.le_refl _
  | cons c ds ih => intro n; have := ih (n * 10 + (c.toNat - 48)); simp only [List.foldl_cons]; omega

theorem parseDigits_iff (ds : Text) : ∀ n m, n < u32Size → (parseDigits n ds = some m ↔
    (∀ c ∈ ds, '0' ≤ c ∧ c ≤ '9') ∧ ds.foldl (fun n c => n * 10 + (c.toNat - 48)) n = m ∧ m < u32Size) := by
  induction ds with
  | nil =>
    intro n m hn
    simp only [parseDigits, Option.some.injEq, List.foldl_nil]
    exact ⟨fun h => ⟨by simp, h, h ▸ hn⟩, fun h => h.2.1⟩
  | cons c ds ih =>
    intro n m hn
    have hz : '0'.toNat = 48 := rfl
    simp only [parseDigits, hz]
    have hle := le_foldl ds (n * 10 + (c.toNat - 48))
    split
    · rename_i hc
      split
      · rename_i hlt
        rw [ih _ m hlt]
        constructor
        · rintro ⟨h1, h2, h3⟩
          refine ⟨fun x hx => ?_, h2, h3⟩
          rcases List.mem_cons.mp hx with rfl | hx
          · exact hc
          · exact h1 x hx
        · rintro ⟨h1, h2, h3⟩
          exact ⟨fun x hx => h1 x (List.mem_cons_of_mem _ hx), h2, h3⟩
      · rename_i hlt
        constructor
        · intro h; cases h
        · rintro ⟨-, h2, h3⟩
          simp only [List.foldl_cons] at h2
          omega
    · rename_i hc
      constructor
      · intro h; cases h
      · intro h; exact absurd (h.1 c (by simp)) hc

theorem parseDigits_dec {ds : Text} {m : Nat} : parseDigits 0 ds = some m ↔
    (∀ c ∈ ds, '0' ≤ c ∧ c ≤ '9') ∧ decNumber ds = m ∧ m < 2 ^ 32 :=
  parseDigits_iff ds 0 m (by decide)

theorem parseU32_iff {s : Text} {n : Nat} : parseU32 s = some n ↔ Numeral s n := by
  have plus : ¬('0' ≤ '+' ∧ '+' ≤ '9') := by decide
  unfold parseU32
  constructor
  · intro h
    split at h
    · cases h
    · cases h
    · rename_i cs hne
      obtain ⟨h1, h2, h3⟩ := parseDigits_dec.mp h
      exact ⟨cs, fun e => hne (by rw [e]), h1, .inr rfl, h2, h3⟩
    · rename_i hne _ _
      obtain ⟨h1, h2, h3⟩ := parseDigits_dec.mp h
      exact ⟨s, hne, h1, .inl rfl, h2, h3⟩
  · rintro ⟨ds, h0, h1, hs, h2, h3⟩
    have hp := parseDigits_dec.mpr ⟨h1, h2, h3⟩
    cases ds with
    | nil => exact absurd rfl h0
    | cons d ds =>
      rcases hs with rfl | rfl
      · split
        · rename_i h; cases h
        · rename_i h; cases h; exact absurd (h1 '+' (by simp)) plus
        · rename_i h; cases h; exact absurd (h1 '+' (by simp)) plus
        · exact hp
      · exact hp

/-! ### The version -/

theorem minorOf_iff {stdout : List UInt8} {m : Nat} : minorOf stdout = some m ↔
    ∃ piece tail, stdout = bytesOf ("rustc 1.".toList ++ piece ++ tail) ∧ '.' ∉ piece ∧
      (tail = [] ∨ ∃ t, tail = '.' :: t) ∧ Numeral piece m := by
  have e1 : ∀ s : Text, "rustc 1.".toList ++ s = "rustc 1".toList ++ '.' :: s := fun _ => rfl
  have f1 : '.' ∉ "rustc 1".toList := by decide
  constructor
  · intro h
    unfold minorOf at h
    split at h
    · cases h
    · rename_i version r hu
      obtain ⟨hs, hr, -⟩ := fromUtf8_spec _ _ (Nat.le_refl _) hu
      rw [hr rfl, List.append_nil] at hs
      have hi := pieces_intercalate '.' version
      have hf := pieces_free '.' version
      unfold pieces at hi hf
      revert h hi hf
      rcases split '.' version with ⟨first, rest⟩
      simp only
      intro h hi hf
      split at h
      · cases h
      · rename_i he
        have he : first = "rustc 1".toList := Classical.byContradiction he
        subst he
        cases rest with
        | nil => cases h
        | cons piece rest =>
          rw [intercalate_cons] at hi
          simp only at h
          cases rest with
          | nil =>
            rw [intercalate_one] at hi
            exact ⟨piece, [], by rw [hs, List.append_nil, e1, hi], hf _ (by simp), .inl rfl, parseU32_iff.mp h⟩
          | cons q qs =>
            rw [intercalate_cons] at hi
            exact ⟨piece, _, by rw [hs, List.append_assoc, e1, hi], hf _ (by simp), .inr ⟨_, rfl⟩,
              parseU32_iff.mp h⟩
  · rintro ⟨piece, tail, rfl, hp, ht, hn⟩
    unfold minorOf
    rw [fromUtf8_bytesOf _ _ (Nat.le_refl _)]
    simp only
    have key : ∃ qs, pieces '.' ("rustc 1.".toList ++ piece ++ tail) = "rustc 1".toList :: piece :: qs := by
      rcases ht with rfl | ⟨t, rfl⟩
      · refine ⟨[], pieces_eq (by simp) ?_ ?_⟩
        · intro p h
          simp only [List.mem_cons, List.not_mem_nil, or_false] at h
          rcases h with rfl | rfl
          · exact f1
          · exact hp
        · rw [intercalate_cons, intercalate_one, List.append_nil, e1]
      · refine ⟨pieces '.' t, pieces_eq (by simp) ?_ ?_⟩
        · intro p h
          simp only [List.mem_cons] at h
          rcases h with rfl | rfl | h
          · exact f1
          · exact hp
          · exact pieces_free _ _ p h
        · have := pieces_intercalate '.' t
          unfold pieces at this ⊢
          rw [intercalate_cons, intercalate_cons, this, List.append_assoc, e1]
    obtain ⟨qs, key⟩ := key
    unfold pieces at key
    have k1 := (List.cons.inj key).1
    have k2 := (List.cons.inj key).2
    rw [k1, k2, if_neg (by simp)]
    exact parseU32_iff.mpr hn

/-- What `main` takes for the version, given the compiler. -/
def minor (h : Host) (rustc : Text) : Nat := ((h.version rustc).bind minorOf).getD (u32Size - 1)

theorem minorVersion_iff {h : Host} {rustc : Text} (hr : h.rustc = some rustc) {m : Nat} :
    (h.version rustc).bind minorOf = some m ↔ MinorVersion h m := by
  rw [Option.bind_eq_some_iff]
  constructor
  · rintro ⟨out, ho, hm⟩
    obtain ⟨piece, tail, rfl, h1, h2, h3⟩ := minorOf_iff.mp hm
    exact ⟨rustc, piece, tail, hr, ho, h1, h2, h3⟩
  · rintro ⟨rustc', piece, tail, hr', ho, h1, h2, h3⟩
    cases hr.symm.trans hr'
    exact ⟨_, ho, minorOf_iff.mpr ⟨piece, tail, rfl, h1, h2, h3⟩⟩

theorem minor_lt_iff {h : Host} {rustc : Text} (hr : h.rustc = some rustc) {n : Nat} (hn : n < u32Size) :
    minor h rustc < n ↔ OlderThan h n := by
  unfold minor OlderThan
  cases hm : (h.version rustc).bind minorOf with
  | none =>
    constructor
    · intro hlt; simp only [Option.getD_none] at hlt; omega
    · rintro ⟨m, hm', -⟩
      rw [(minorVersion_iff hr).mpr hm'] at hm; cases hm
  | some m =>
    constructor
    · intro hlt; exact ⟨m, (minorVersion_iff hr).mp hm, hlt⟩
    · rintro ⟨m', hm', hlt⟩
      rw [(minorVersion_iff hr).mpr hm'] at hm; cases hm; exact hlt

/-! ### The command -/

theorem optional_iff {v : Option Text} {l : List Text} : Optional v l ↔ l = wrapperOf v := by
  unfold Optional
  rcases v with - | w
  · simp [wrapperOf]
  · cases w with
    | nil =>
      constructor
      · rintro (⟨h, -⟩ | ⟨w, h, e, -⟩)
        · exact h
        · cases e; exact absurd rfl h
      · intro h; exact .inl ⟨h, .inr rfl⟩
    | cons c w =>
      constructor
      · rintro (⟨-, h | h⟩ | ⟨w, h, e, h'⟩)
        · cases h
        · cases h
        · cases e; exact h'
      · intro h; exact .inr ⟨_, by simp, rfl, h⟩

theorem encoded_iff {v : Option Text} {l : List Text} : Encoded v l ↔ l = flagsOf v := by
  unfold Encoded
  rcases v with - | w
  · simp [flagsOf]
  · cases w with
    | nil =>
      constructor
      · rintro (⟨h, -⟩ | ⟨w, h, e, -⟩)
        · exact h
        · cases e; exact absurd rfl h
      · intro h; exact .inl ⟨h, .inr rfl⟩
    | cons c w =>
      simp only [flagsOf, List.isEmpty_cons, Bool.false_eq_true, if_false]
      constructor
      · rintro (⟨-, h | h⟩ | ⟨w', -, h, h0, h1, h2⟩)
        · cases h
        · cases h
        · cases h; exact (pieces_eq h0 h1 h2).symm
      · rintro rfl
        exact .inr ⟨_, by simp, rfl, by simp [pieces], pieces_free _ _, pieces_intercalate _ _⟩

theorem entryPath_iff {d e p : Text} : EntryPath d e p ↔ p = joinPath d e := by
  unfold EntryPath joinPath
  have hl : d.getLast? = some '/' ↔ ∃ d', d = d' ++ ['/'] := by
    rw [List.getLast?_eq_some_iff]
  by_cases h0 : d = []
  · subst h0; simp
  · by_cases h1 : ∃ d', d = d' ++ ['/']
    · rw [if_pos (.inr (hl.mpr h1))]
      exact ⟨fun h => h.elim (·.1) (fun h => absurd h1 h.2.2), fun h => .inl ⟨h, .inr h1⟩⟩
    · rw [if_neg (not_or.mpr ⟨h0, fun h => h1 (hl.mp h)⟩)]
      refine ⟨fun h => h.elim (fun h => absurd h.2 (not_or.mpr ⟨h0, h1⟩)) (fun h => by rw [h.1]; simp), fun h => .inr ⟨by rw [h]; simp, h0, h1⟩⟩

theorem probeFile_eq (f : Probe) : "src/probe/".toList ++ f.name ++ ".rs".toList = probeFile f := by
  cases f <;> decide +kernel

theorem probeCommand_iff {h : Host} {f : Probe} {argv : List Text} :
    ProbeCommand h f argv ↔
      ∃ rustc outDir, h.rustc = some rustc ∧ h.outDir = some outDir ∧ argv = probeCommand h rustc outDir f := by
  have ht : (h.target.toList.flatMap fun t => ["--target".toList, t]) = targetOf h.target := by
    cases h.target <;> simp [Option.toList, targetOf]
  unfold ProbeCommand probeCommand
  rw [ht, probeFile_eq]
  constructor
  · rintro ⟨w, ww, rustc, out, dir, fl, h1, h2, h3, h4, h5, h6, rfl⟩
    rw [optional_iff.mp h1, optional_iff.mp h2, entryPath_iff.mp h5, encoded_iff.mp h6]
    exact ⟨rustc, out, h3, h4, by simp only [List.append_assoc, List.cons_append, List.nil_append]⟩
  · rintro ⟨rustc, out, h3, h4, rfl⟩
    exact ⟨_, _, rustc, out, _, _, optional_iff.mpr rfl, optional_iff.mpr rfl, h3, h4, entryPath_iff.mpr rfl,
      encoded_iff.mpr rfl, by simp only [List.append_assoc, List.cons_append, List.nil_append]⟩

/-! ### Probes -/

section
open Classical

theorem compiles_iff {h : Host} {rustc outDir : Text} (hr : h.rustc = some rustc) (ho : h.outDir = some outDir)
    {b : Option Text} {f : Probe} :
    Compiles h b f ↔ h.run b (probeCommand h rustc outDir f) = some true := by
  unfold Compiles
  constructor
  · rintro ⟨argv, hc, hs⟩
    obtain ⟨r, o, e1, e2, rfl⟩ := probeCommand_iff.mp hc
    cases hr.symm.trans e1
    cases ho.symm.trans e2
    exact hs
  · intro hs
    exact ⟨_, probeCommand_iff.mpr ⟨rustc, outDir, hr, ho, rfl⟩, hs⟩

theorem getD_false_eq (o : Option Bool) : o.getD false = decide (o = some true) := by
  rcases o with - | _ | _ <;> simp

/-- `do_compile_probe`: what it prints and what it gives. -/
theorem doCompileProbe_eq {h : Host} {rustc : Text} (hr : h.rustc = some rustc) (f : Probe) (b : Bool) :
    doCompileProbe h f b = ⟨[.rerunIfChanged (probeFile f)],
      if Broken h f b then none else some (decide (Compiles h (if b then h.rustcBootstrap else none) f))⟩ := by
  unfold doCompileProbe
  rw [hr]
  simp only [Bind.bind, Script.bind, Script.print, cargoEnvVar, Pure.pure, probeFile_eq]
  cases ho : h.outDir with
  | none =>
    rw [if_pos (show Broken h f b from .inl ho)]
    rfl
  | some out =>
    have hc := compiles_iff hr ho (b := if b then h.rustcBootstrap else none) (f := f)
    simp only [getD_false_eq, ← hc]
    unfold Broken
    rw [ho]
    have hn : (none : Option IoError) ≠ none → False := fun h => h rfl
    cases hcd : h.createDir f b with
    | none =>
      cases hrd : h.removeDir f b with
      | none => simp [Script.exit]
      | some e =>
        by_cases h1 : e.kind = .notFound
        · simp [h1]
        · by_cases h2 : h.linux = true ∧ e.rawOsError = some 39
          · simp [h2.1, h2.2]
          · have : (h.linux && decide (e.rawOsError = some 39)) = false := by
              simpa using h2
            simp [h1, this, Script.exit, h2]
    | some e =>
      by_cases h0 : e.kind = .alreadyExists
      · cases hrd : h.removeDir f b with
        | none => simp [Script.exit, h0]
        | some e =>
          by_cases h1 : e.kind = .notFound
          · simp [h1, h0]
          · by_cases h2 : h.linux = true ∧ e.rawOsError = some 39
            · simp [h2.1, h2.2, h0]
            · have : (h.linux && decide (e.rawOsError = some 39)) = false := by
                simpa using h2
              simp [h1, this, Script.exit, h2, h0]
      · simp [h0, Script.exit]

/-- The script asks to be run again when `RUSTC_BOOTSTRAP` changes. -/
def Considered (h : Host) : Prop :=
  ¬(h.rustcStage = none ∧ Compiles h none .span) ∧ (h.rustcBootstrap = some ['1'] → SpanApi h)

/-- A line that is printed if something holds. -/
noncomputable def lineIf (p : Prop) (l : Line) : List Line := if p then [l] else []

theorem mem_lineIf {p : Prop} {l l' : Line} : l' ∈ lineIf p l ↔ p ∧ l' = l := by
  unfold lineIf
  split <;> simp_all

/-- What is printed for the probe of the unstable API. -/
noncomputable def spanLines (h : Host) : List Line :=
  lineIf (h.rustcStage = none) (.rerunIfChanged (probeFile .span)) ++
  lineIf (h.rustcStage = none ∧ h.rustcBootstrap ≠ none ∧ ¬Compiles h none .span) (.rerunIfChanged (probeFile .span))

theorem probeSpan_ok {h : Host} {rustc : Text} (hr : h.rustc = some rustc)
    (h1 : h.rustcStage = none → ¬Broken h .span false)
    (h2 : h.rustcStage = none → h.rustcBootstrap ≠ none → ¬Compiles h none .span → ¬Broken h .span true) :
    probeSpan h = ⟨spanLines h, some (decide (SpanApi h), decide (Considered h))⟩ := by
  unfold probeSpan compileProbeUnstable
  simp only [doCompileProbe_eq hr, Bind.bind, Script.bind, Pure.pure]
  by_cases hs : h.rustcStage = none
  · have hs' : h.rustcStage.isNone = true := by rw [hs]; rfl
    simp only [hs', if_true, if_neg (h1 hs), Bool.false_eq_true, if_false]
    by_cases hc : Compiles h none .span
    · simp [hc, SpanApi, hs, Considered, spanLines, lineIf]
    · cases hb : h.rustcBootstrap with
      | none => simp [hc, SpanApi, hs, Considered, spanLines, lineIf, hb]
      | some b =>
        have hbr := h2 hs (by rw [hb]; simp) hc
        simp only [if_neg hbr]
        by_cases hc' : Compiles h (some b) .span
        · simp [hc, hc', SpanApi, hs, Considered, spanLines, lineIf, hb]
        · by_cases hb1 : b = ['1']
          · subst hb1
            simp [hc, hc', SpanApi, hs, Considered, spanLines, lineIf, hb]
          · simp [hc, hc', SpanApi, hs, Considered, spanLines, lineIf, hb, hb1]
  · have hs' : h.rustcStage.isNone = false := by
      cases h' : h.rustcStage with
      | none => exact absurd h' hs
      | some _ => rfl
    simp only [hs', Bool.false_eq_true, if_false]
    cases hb : h.rustcBootstrap with
    | none => simp [SpanApi, hs, Considered, spanLines, lineIf, hb]
    | some b =>
      by_cases hb1 : b = ['1']
      · subst hb1
        simp [SpanApi, hs, Considered, spanLines, lineIf, hb]
      · simp [SpanApi, hs, Considered, spanLines, lineIf, hb, hb1]

theorem probeSpan_broken {h : Host} {rustc : Text} (hr : h.rustc = some rustc) (hs : h.rustcStage = none)
    (hb : Broken h .span false ∨ h.rustcBootstrap ≠ none ∧ ¬Compiles h none .span ∧ Broken h .span true) :
    (probeSpan h).result = none := by
  unfold probeSpan compileProbeUnstable
  simp only [doCompileProbe_eq hr, Bind.bind, Script.bind, Pure.pure]
  have hs' : h.rustcStage.isNone = true := by rw [hs]; rfl
  simp only [hs', if_true]
  by_cases h1 : Broken h .span false
  · simp [h1]
  · obtain ⟨h2, h3, h4⟩ := hb.resolve_left h1
    cases hb' : h.rustcBootstrap with
    | none => exact absurd hb' h2
    | some b => simp [h1, h3, h4]

/-- One of the probes of the stable API, with what depends on it. -/
theorem stable_ok {h : Host} {rustc : Text} (hr : h.rustc = some rustc) (f : Probe) (hp : h.procMacro = true)
    (hf : f ≠ .span) (hb : ∀ b, Probed h f b → ¬Broken h f b) :
    orProbe (decide (SpanApi h)) (decide (88 ≤ minor h rustc)) (compileProbeStable h f) =
      ⟨lineIf (Probed h f true) (.rerunIfChanged (probeFile f)), some (decide (SpanApi h ∨ StableApi h f))⟩ := by
  have ho : 88 ≤ minor h rustc ↔ ¬OlderThan h 88 := by
    rw [← minor_lt_iff hr (by decide)]; omega
  have hprobed : Probed h f true ↔ h.rustcStage = none ∧ ¬SpanApi h ∧ ¬OlderThan h 88 := by
    cases f <;> simp_all [Probed]
  unfold orProbe compileProbeStable
  rw [doCompileProbe_eq hr]
  by_cases hsa : SpanApi h
  · simp [hsa, lineIf, hprobed, Pure.pure]
  · by_cases hold : OlderThan h 88
    · simp [hsa, ho, hold, lineIf, hprobed, StableApi, Pure.pure]
    · by_cases hs : h.rustcStage = none
      · have hpr := hprobed.mpr ⟨hs, hsa, hold⟩
        simp [hsa, ho, hold, lineIf, hpr, StableApi, hs, hb true hpr]
      · have hs' : h.rustcStage.isSome = true := by
          cases h' : h.rustcStage with
          | none => exact absurd h' hs
          | some _ => rfl
        simp [hsa, ho, hold, lineIf, hprobed, StableApi, hs, hs', Pure.pure]

theorem stable_broken {h : Host} {rustc : Text} (hr : h.rustc = some rustc) (f : Probe)
    (hf : f ≠ .span) {b : Bool} (hp : Probed h f b) (hb : Broken h f b) :
    (orProbe (decide (SpanApi h)) (decide (88 ≤ minor h rustc)) (compileProbeStable h f)).result = none := by
  have ho : 88 ≤ minor h rustc ↔ ¬OlderThan h 88 := by
    rw [← minor_lt_iff hr (by decide)]; omega
  have key : b = true ∧ h.rustcStage = none ∧ ¬SpanApi h ∧ ¬OlderThan h 88 := by
    cases f <;> cases b <;> simp_all [Probed]
  obtain ⟨rfl, hs, hsa, hold⟩ := key
  unfold orProbe compileProbeStable
  rw [doCompileProbe_eq hr]
  simp [hsa, ho, hold, hs, hb]

/-! ### The script -/

/-- The lines that do not depend on probes. -/
noncomputable def versionLines (h : Host) : List Line :=
  (if OlderThan h 80 then [] else checkCfgs.lines) ++
  lineIf (h.semverExempt = true) (.cfg .semverExempt) ++
  lineIf (h.semverExempt = true ∨ h.spanLocations = true) (.cfg .spanLocations) ++
  lineIf (OlderThan h 57) (.cfg .noIsAvailable) ++
  lineIf (OlderThan h 66) (.cfg .noSourceText) ++
  lineIf (OlderThan h 79) (.cfg .noLiteralByteCharacter) ++
  lineIf (OlderThan h 79) (.cfg .noLiteralCString)

/-- The lines that do. -/
noncomputable def probeLines (h : Host) : List Line :=
  spanLines h ++
  lineIf (h.semverExempt = true → SpanApi h) (.cfg .wrapProcMacro) ++
  lineIf (SpanApi h) (.cfg .procMacroSpan) ++
  lineIf (Probed h .location true) (.rerunIfChanged (probeFile .location)) ++
  lineIf (SpanApi h ∨ StableApi h .location) (.cfg .procMacroSpanLocation) ++
  lineIf (Probed h .file true) (.rerunIfChanged (probeFile .file)) ++
  lineIf (SpanApi h ∨ StableApi h .file) (.cfg .procMacroSpanFile) ++
  lineIf (h.semverExempt = true ∧ SpanApi h) (.cfg .superUnstable) ++
  lineIf (Considered h) (.rerunIfEnvChanged "RUSTC_BOOTSTRAP".toList)

/-- The second part of `main`. -/
def tail (h : Host) (rustc : Nat) : Script Unit :=
  if !h.procMacro then Script.print (.rerunIfChanged "build.rs".toList)
  else do
    let (procMacroSpan, considerRustcBootstrap) ← probeSpan h
    Script.when (procMacroSpan || !h.semverExempt) (Script.print (.cfg .wrapProcMacro))
    Script.when procMacroSpan (Script.print (.cfg .procMacroSpan))
    Script.when (← orProbe procMacroSpan (88 ≤ rustc) (compileProbeStable h .location))
      (Script.print (.cfg .procMacroSpanLocation))
    Script.when (← orProbe procMacroSpan (88 ≤ rustc) (compileProbeStable h .file))
      (Script.print (.cfg .procMacroSpanFile))
    Script.when (h.semverExempt && procMacroSpan) (Script.print (.cfg .superUnstable))
    Script.when considerRustcBootstrap (Script.print (.rerunIfEnvChanged "RUSTC_BOOTSTRAP".toList))

theorem when_eq (c : Bool) (l : Line) : Script.when c (Script.print l) = ⟨lineIf (c = true) l, some ()⟩ := by
  cases c <;> simp [Script.when, Script.print, lineIf]

theorem bind_some {α β : Type} (l : List Line) (a : α) (f : α → Script β) :
    ((⟨l, some a⟩ : Script α) >>= f) = ⟨l ++ (f a).lines, (f a).result⟩ := rfl

theorem bind_none {α β : Type} {x : Script α} (hx : x.result = none) (f : α → Script β) :
    (x >>= f).result = none := by
  show (Script.bind x f).result = none
  unfold Script.bind
  rw [hx]

theorem main_none {h : Host} (hr : h.rustc = none) : main h = ⟨[], none⟩ := by
  unfold main rustcMinorVersion
  rw [hr]
  rfl

theorem main_eq {h : Host} {rustc : Text} (hr : h.rustc = some rustc) :
    main h = ⟨versionLines h ++ (tail h (minor h rustc)).lines, (tail h (minor h rustc)).result⟩ := by
  have e0 : rustcMinorVersion h = ⟨[], some ((h.version rustc).bind minorOf)⟩ := by
    unfold rustcMinorVersion; rw [hr]; rfl
  have e1 : Script.when (decide (80 ≤ minor h rustc)) checkCfgs =
      ⟨if OlderThan h 80 then [] else checkCfgs.lines, some ()⟩ := by
    by_cases ho : OlderThan h 80
    · have := (minor_lt_iff hr (by decide)).mpr ho
      rw [if_pos ho, decide_eq_false (by omega)]; rfl
    · have : ¬minor h rustc < 80 := fun hh => ho ((minor_lt_iff hr (by decide)).mp hh)
      rw [if_neg ho, decide_eq_true (by omega)]; rfl
  have e2 : Script.when (decide (minor h rustc < 79))
      (do Script.print (.cfg .noLiteralByteCharacter); Script.print (.cfg .noLiteralCString)) =
      ⟨lineIf (OlderThan h 79) (.cfg .noLiteralByteCharacter) ++ lineIf (OlderThan h 79) (.cfg .noLiteralCString),
        some ()⟩ := by
    by_cases ho : OlderThan h 79
    · rw [decide_eq_true ((minor_lt_iff hr (by decide)).mpr ho)]
      unfold lineIf; rw [if_pos ho, if_pos ho]; rfl
    · rw [decide_eq_false (fun hh => ho ((minor_lt_iff hr (by decide)).mp hh))]
      unfold lineIf; rw [if_neg ho, if_neg ho]; rfl
  have em : main h = (do
      let rustc := (← rustcMinorVersion h).getD (u32Size - 1)
      Script.when (80 ≤ rustc) checkCfgs
      Script.when h.semverExempt (Script.print (.cfg .semverExempt))
      Script.when (h.semverExempt || h.spanLocations) (Script.print (.cfg .spanLocations))
      Script.when (rustc < 57) (Script.print (.cfg .noIsAvailable))
      Script.when (rustc < 66) (Script.print (.cfg .noSourceText))
      Script.when (rustc < 79) (do
        Script.print (.cfg .noLiteralByteCharacter)
        Script.print (.cfg .noLiteralCString))
      tail h rustc) := rfl
  rw [em, e0, bind_some]
  show (⟨[] ++ _, _⟩ : Script Unit) = _
  change (⟨[] ++ (Script.when (decide (80 ≤ minor h rustc)) checkCfgs >>= fun _ => _).lines, (Script.when (decide (80 ≤ minor h rustc)) checkCfgs >>= fun _ => _).result⟩ : Script Unit) = _
  rw [e1, bind_some, when_eq, bind_some, when_eq, bind_some]
  have e57 : decide (((h.version rustc).bind minorOf).getD (u32Size - 1) < 57) = true ↔ OlderThan h 57 := by
    rw [decide_eq_true_iff]; exact minor_lt_iff hr (by decide)
  have e66 : decide (((h.version rustc).bind minorOf).getD (u32Size - 1) < 66) = true ↔ OlderThan h 66 := by
    rw [decide_eq_true_iff]; exact minor_lt_iff hr (by decide)
  rw [when_eq, bind_some, when_eq, bind_some]
  change (⟨_ ++ (_ ++ (_ ++ (_ ++ (_ ++ (_ ++ (Script.when (decide (minor h rustc < 79)) _ >>= fun _ => _).lines))))), (Script.when (decide (minor h rustc < 79)) _ >>= fun _ => _).result⟩ : Script Unit) = _
  rw [e2, bind_some, e57, e66]
  simp only [versionLines, List.nil_append, List.append_assoc, Bool.or_eq_true]
  rfl

theorem tail_off {h : Host} (hp : h.procMacro = false) (m : Nat) :
    tail h m = ⟨[.rerunIfChanged "build.rs".toList], some ()⟩ := by
  unfold tail
  rw [hp]
  rfl

theorem tail_ok {h : Host} {rustc : Text} (hr : h.rustc = some rustc) (hp : h.procMacro = true)
    (hb : ∀ f b, Probed h f b → ¬Broken h f b) : tail h (minor h rustc) = ⟨probeLines h, some ()⟩ := by
  unfold tail
  rw [hp, if_neg (by simp),
    probeSpan_ok hr (fun hs => hb .span false ⟨hp, hs, trivial⟩) (fun hs h1 h2 => hb .span true ⟨hp, hs, h1, h2⟩),
    bind_some]
  simp only [when_eq, bind_some, stable_ok hr .location hp (by simp) (hb _), stable_ok hr .file hp (by simp) (hb _)]
  have e : (decide (SpanApi h) || !h.semverExempt) = true ↔ (h.semverExempt = true → SpanApi h) := by
    by_cases h1 : SpanApi h <;> cases h2 : h.semverExempt <;> simp [h1]
  simp only [probeLines, List.append_assoc, e, decide_eq_true_iff, Bool.and_eq_true]

theorem tail_broken {h : Host} {rustc : Text} (hr : h.rustc = some rustc) {f : Probe} {b : Bool}
    (hp : Probed h f b) (hb : Broken h f b) : (tail h (minor h rustc)).result = none := by
  unfold tail
  rw [hp.1, if_neg (by simp)]
  by_cases hspan : Broken h .span false ∨ h.rustcBootstrap ≠ none ∧ ¬Compiles h none .span ∧ Broken h .span true
  · exact bind_none (probeSpan_broken hr hp.2.1 hspan) _
  · have hf : f ≠ .span := by
      rintro rfl
      cases b with
      | false => exact hspan (.inl hb)
      | true => exact hspan (.inr ⟨hp.2.2.1, hp.2.2.2, hb⟩)
    rw [probeSpan_ok hr (fun _ hh => hspan (.inl hh)) (fun _ h1 h2 h3 => hspan (.inr ⟨h1, h2, h3⟩)), bind_some]
    simp only [when_eq, bind_some]
    by_cases hl : f = .location
    · subst hl
      exact bind_none (stable_broken hr _ hf hp hb) _
    · by_cases hlb : ∃ b, Probed h .location b ∧ Broken h .location b
      · obtain ⟨b', h1, h2⟩ := hlb
        exact bind_none (stable_broken hr _ (by simp) h1 h2) _
      · rw [stable_ok hr .location hp.1 (by simp) (fun b h1 h2 => hlb ⟨b, h1, h2⟩), bind_some]
        simp only [bind_some]
        have : f = .file := by cases f <;> simp_all
        subst this
        exact bind_none (stable_broken hr _ hf hp hb) _

end

end PM2.Build
