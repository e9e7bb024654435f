import Verif.Spec.Crate
import Verif.Spec.Decide
/-! # Conditional compilation: the references as implications between conditions -/

namespace PM2.Crate
open Build Spec

/-- If the first condition holds, then one of the others. -/
abbrev Obl := Cond × List Cond

def Obl.Holds (e : Env) (o : Obl) : Prop := o.1.eval e = true → ∃ c ∈ o.2, c.eval e = true

def Obl.check (e : Env) (o : Obl) : Bool := !o.1.eval e || o.2.any (·.eval e)

theorem Obl.holds_of_check {e : Env} {o : Obl} (h : o.check e = true) : o.Holds e := by
  intro h1
  simp only [check, h1, Bool.not_true, Bool.false_or, List.any_eq_true] at h
  exact h

/-- When a definition is compiled. -/
def activeCond (d : Def) : Cond := .all (fileCond d.file) d.cond

theorem active_iff {e : Env} {d : Def} : Active e d ↔ (activeCond d).eval e = true := by
  simp [Active, activeCond, Cond.eval]

def conds (file : File) (name : Ident) : List Cond :=
  (defs.filter fun d => d.file = file ∧ d.name = name).map activeCond

def needConds : Need → List Cond
  | .item file name => conds file name
  | .imp name => (conds .wrapper name).map (.all wrap) ++ (conds .fallback name).map (.all (.not wrap))
  | .method _ => [.always]

def foundObls (d : Def) : List Obl := d.needs.map fun p => (.all (activeCond d) p.1, needConds p.2)

def pairObls (a : Cond) : List Cond → List Obl
  | [] => []
  | c :: cs => cs.map (fun c' => (.all a (.all c c'), [])) ++ pairObls a cs

def chosenObls (d : Def) : List Obl := d.choices.flatMap fun g => (activeCond d, g) :: pairObls (activeCond d) g

def users (file : File) (name : Ident) : List Cond :=
  defs.flatMap fun d => (d.needs.filter fun p => p.2 = .item file name).map fun p => .all (activeCond d) p.1

def usedObls (d : Def) : List Obl := if d.isImport then [(activeCond d, users d.file d.name)] else []

def onceObls : List Def → List Obl
  | [] => []
  | d :: ds => ((ds.filter fun d' => d.file = d'.file ∧ d.name = d'.name).map fun d' =>
      (.all (activeCond d) (activeCond d'), [])) ++ onceObls ds

/-- What makes a method available. -/
def reason : Method → Cond
  | .byteRange | .join | .subspan => .cfg .procMacroSpan
  | .start | .end | .line | .column => .cfg .procMacroSpanLocation
  | .file | .localFile => .cfg .procMacroSpanFile
  | .sourceText => .not (.cfg .noSourceText)
  | .byteCharacter => .not (.cfg .noLiteralByteCharacter)
  | .cString => .not (.cfg .noLiteralCString)
  | .isAvailable => .not (.cfg .noIsAvailable)
  | .defSite | .spanEq => .cfg .superUnstable

def methodObls (d : Def) : List Obl := d.needs.filterMap fun p =>
  match p.2 with
  | .method m => some (.all (activeCond d) p.1, [reason m])
  | _ => none

def obls : List Obl :=
  onceObls defs ++ defs.flatMap foundObls ++ defs.flatMap chosenObls ++ defs.flatMap usedObls ++ defs.flatMap methodObls

/-! ### All settings -/

def Cond.mentions : Cond → List Cfg
  | always | procMacro => []
  | cfg c => [c]
  | not c => c.mentions
  | all a b => a.mentions ++ b.mentions

theorem Cond.eval_congr {e e' : Env} (hp : e.procMacro = e'.procMacro) {c : Cond}
    (h : ∀ x ∈ c.mentions, e.cfg x = e'.cfg x) : c.eval e = c.eval e' := by
  induction c with
  | always => rfl
  | cfg x => exact h x (by simp [mentions])
  | procMacro => exact hp
  | not c ih => simp only [eval, ih h]
  | all a b iha ihb =>
    simp only [eval]
    rw [iha fun x hx => h x (List.mem_append.mpr (.inl hx)), ihb fun x hx => h x (List.mem_append.mpr (.inr hx))]

def Obl.mentions (o : Obl) : List Cfg := o.1.mentions ++ o.2.flatMap Cond.mentions

theorem Obl.holds_congr {e e' : Env} (hp : e.procMacro = e'.procMacro) {o : Obl}
    (h : ∀ x ∈ o.mentions, e.cfg x = e'.cfg x) (ho : o.Holds e') : o.Holds e := by
  intro h1
  rw [Cond.eval_congr hp fun x hx => h x (List.mem_append.mpr (.inl hx))] at h1
  obtain ⟨c, hc, h2⟩ := ho h1
  refine ⟨c, hc, ?_⟩
  rw [Cond.eval_congr hp fun x hx => h x (List.mem_append.mpr (.inr (List.mem_flatMap.mpr ⟨c, hc, hx⟩)))]
  exact h2

/-- The `cfg`s that the script does not set independently. -/
def core : List Cfg := [.wrapProcMacro, .procMacroSpan, .semverExempt, .superUnstable, .spanLocations, .procMacroSpanFile,
  .procMacroSpanLocation]

/-- A setting of those, and of others. -/
def env (procMacro wrap span exempt located file location : Bool) (others : List Cfg) : Env where
  procMacro := procMacro
  cfg
    | .wrapProcMacro => wrap
    | .procMacroSpan => span
    | .semverExempt => exempt
    | .superUnstable => exempt && span
    | .spanLocations => located
    | .procMacroSpanFile => file
    | .procMacroSpanLocation => location
    | c => others.contains c

def subsets : List Cfg → List (List Cfg)
  | [] => [[]]
  | c :: cs => subsets cs ++ (subsets cs).map (c :: ·)

theorem filter_mem_subsets (p : Cfg → Bool) (l : List Cfg) : l.filter p ∈ subsets l := by
  induction l with
  | nil => simp [subsets]
  | cons c cs ih =>
    simp only [subsets, List.mem_append, List.mem_map]
    cases hc : p c with
    | false => left; simpa [List.filter_cons, hc] using ih
    | true => right; exact ⟨_, ih, by simp [hc]⟩

def Obl.others (o : Obl) : List Cfg := (o.mentions.filter fun c => !core.contains c).eraseDups

/-- For both. -/
def both (p : Bool → Bool) : Bool := p false && p true

theorem of_both {p : Bool → Bool} (h : both p = true) (b : Bool) : p b = true := by
  simp only [both, Bool.and_eq_true] at h
  cases b
  · exact h.1
  · exact h.2

/-- Unless the first is false. -/
def implies (a b : Bool) : Bool := if a then b else true

theorem of_implies {a b : Bool} (h : implies a b = true) (ha : a = true) : b = true := by
  subst ha; exact h

/-- An implication holds for all settings that the script can lead to. -/
def Obl.valid (ob : Obl) : Bool :=
  both fun pm => both fun w => implies (implies w pm) <| both fun s => implies (implies s w) <|
  both fun x => implies (implies x (implies w s)) <| implies (implies pm (implies (!x) w)) <|
  both fun l => implies (implies x l) <| both fun f => implies (implies s f) <| implies (implies f pm) <|
  both fun o => implies (implies s o) <| implies (implies o pm) <|
  (subsets ob.others).all fun others => ob.check (env pm w s x l f o others)

set_option maxRecDepth 100000 in
theorem all_valid : obls.eraseDups.all Obl.valid = true := by decide +kernel

/-- The relations between the `cfg`s of the script. -/
structure Consistent (e : Env) : Prop where
  wrapped : e.cfg .wrapProcMacro = true → e.procMacro = true
  span : e.cfg .procMacroSpan = true → e.cfg .wrapProcMacro = true ∧ e.cfg .procMacroSpanFile = true ∧
    e.cfg .procMacroSpanLocation = true
  exempt : e.cfg .semverExempt = true → e.cfg .spanLocations = true ∧
    (e.cfg .wrapProcMacro = true → e.cfg .procMacroSpan = true)
  wraps : e.procMacro = true → e.cfg .semverExempt = false → e.cfg .wrapProcMacro = true
  file : e.cfg .procMacroSpanFile = true → e.procMacro = true
  location : e.cfg .procMacroSpanLocation = true → e.procMacro = true
  unstable : e.cfg .superUnstable = (e.cfg .semverExempt && e.cfg .procMacroSpan)

theorem implies_of {a b : Bool} (h : a = true → b = true) : implies a b = true := by
  cases a
  · rfl
  · exact h rfl

theorem holds {e : Env} (he : Consistent e) {ob : Obl} (hm : ob ∈ obls) : ob.Holds e := by
  have hv : ob.valid = true := List.all_eq_true.mp all_valid ob (List.mem_eraseDups.mpr hm)
  unfold Obl.valid at hv
  have hv := of_both hv e.procMacro
  have hv := of_both hv (e.cfg .wrapProcMacro)
  have hv := of_implies hv (implies_of he.wrapped)
  have hv := of_both hv (e.cfg .procMacroSpan)
  have hv := of_implies hv (implies_of fun h => (he.span h).1)
  have hv := of_both hv (e.cfg .semverExempt)
  have hv := of_implies hv (implies_of fun h => implies_of (he.exempt h).2)
  have hv := of_implies hv (implies_of fun h => implies_of fun h' => he.wraps h (by simpa using h'))
  have hv := of_both hv (e.cfg .spanLocations)
  have hv := of_implies hv (implies_of fun h => (he.exempt h).1)
  have hv := of_both hv (e.cfg .procMacroSpanFile)
  have hv := of_implies hv (implies_of fun h => (he.span h).2.1)
  have hv := of_implies hv (implies_of he.file)
  have hv := of_both hv (e.cfg .procMacroSpanLocation)
  have hv := of_implies hv (implies_of fun h => (he.span h).2.2)
  have hv := of_implies hv (implies_of he.location)
  have hv := List.all_eq_true.mp hv _ (filter_mem_subsets e.cfg ob.others)
  have hh := Obl.holds_of_check hv
  refine Obl.holds_congr ?_ (fun c hc => ?_) hh
  · rfl
  have hother : core.contains c = false → e.cfg c = (ob.others.filter e.cfg).contains c := by
    intro hn
    have hmem : c ∈ ob.others := by
      simp only [Obl.others, List.mem_eraseDups, List.mem_filter, hc, hn, Bool.not_false, and_self]
    cases h : e.cfg c with
    | false => symm; rw [Bool.eq_false_iff]; simp [List.mem_filter, h]
    | true => symm; simp [List.mem_filter, h, hmem]
  cases c <;> first | rfl | exact he.unstable | exact hother rfl

/-! ### From the implications to the specification -/

theorem holds_active {e : Env} {d : Def} (h : (activeCond d).eval e = true) : Active e d := active_iff.mpr h

theorem found_of_conds {e : Env} {file : File} {name : Ident} {c : Cond} (hc : c ∈ conds file name)
    (h : c.eval e = true) : Found e file name := by
  simp only [conds, List.mem_map, List.mem_filter, decide_eq_true_eq] at hc
  obtain ⟨d, ⟨hd, h1, h2⟩, rfl⟩ := hc
  exact ⟨d, hd, h1, h2, holds_active h⟩

theorem foundNeed {e : Env} {n : Need} {c : Cond} (hc : c ∈ needConds n) (h : c.eval e = true) : FoundNeed e n := by
  cases n with
  | item file name => exact found_of_conds hc h
  | imp name =>
    simp only [needConds, List.mem_append, List.mem_map] at hc
    rcases hc with ⟨c, hc, rfl⟩ | ⟨c, hc, rfl⟩
    · simp only [Cond.eval, Bool.and_eq_true] at h
      exact .inl ⟨h.1, found_of_conds hc h.2⟩
    · simp only [Cond.eval, Bool.and_eq_true, Bool.not_eq_true'] at h
      exact .inr ⟨h.1, found_of_conds hc h.2⟩
  | method m => trivial

theorem once_of {e : Env} {ds : List Def} (h : ∀ o ∈ onceObls ds, Obl.Holds e o) :
    ds.Pairwise fun d d' => d.file = d'.file → d.name = d'.name → ¬(Active e d ∧ Active e d') := by
  induction ds with
  | nil => exact .nil
  | cons d ds ih =>
    simp only [onceObls, List.mem_append, List.mem_map, List.mem_filter] at h
    refine .cons (fun d' hd' h1 h2 ⟨h3, h4⟩ => ?_) (ih fun o ho => h o (.inr ho))
    obtain ⟨c, hc, -⟩ := h (.all (activeCond d) (activeCond d'), []) (.inl ⟨d', ⟨hd', by simp [h1, h2]⟩, rfl⟩)
      (by simp [Cond.eval, active_iff.mp h3, active_iff.mp h4])
    cases hc

theorem pair_of {e : Env} {a : Cond} (ha : a.eval e = true) {g : List Cond}
    (h : ∀ o ∈ pairObls a g, Obl.Holds e o) : (g.filter (·.eval e)).length ≤ 1 := by
  induction g with
  | nil => simp
  | cons c cs ih =>
    simp only [pairObls, List.mem_append, List.mem_map] at h
    have ih := ih fun o ho => h o (.inr ho)
    cases hc : c.eval e with
    | false => simpa [List.filter_cons, hc] using ih
    | true =>
      have : cs.filter (·.eval e) = [] := by
        rw [List.filter_eq_nil_iff]
        intro c' hc' h'
        obtain ⟨x, hx, -⟩ := h (.all a (.all c c'), []) (.inl ⟨c', hc', rfl⟩) (by simp [Cond.eval, ha, hc, h'])
        cases hx
      simp [hc, this]

theorem resolved {e : Env} (he : Consistent e) : Resolved e where
  once := once_of fun o ho => holds he (by simp [obls, ho])
  found := by
    intro d hd ha c n hn hc
    obtain ⟨c', hc', h⟩ := holds he (ob := (.all (activeCond d) c, needConds n))
      (by
        simp only [obls, List.mem_append, List.mem_flatMap]
        exact .inl (.inl (.inl (.inr ⟨d, hd, List.mem_map.mpr ⟨_, hn, rfl⟩⟩))))
      (by simp [Cond.eval, active_iff.mp ha, hc])
    exact foundNeed hc' h
  chosen := by
    intro d hd ha g hg
    have hmem : ∀ o ∈ (activeCond d, g) :: pairObls (activeCond d) g, o ∈ obls := by
      intro o ho
      simp only [obls, List.mem_append, List.mem_flatMap]
      exact .inl (.inl (.inr ⟨d, hd, List.mem_flatMap.mpr ⟨g, hg, ho⟩⟩))
    have h1 := pair_of (active_iff.mp ha) fun o ho => holds he (hmem o (.tail _ ho))
    obtain ⟨c, hc, h⟩ := holds he (hmem _ (.head _)) (active_iff.mp ha)
    have h2 : 0 < (g.filter (·.eval e)).length := List.length_pos_of_mem (List.mem_filter.mpr ⟨hc, h⟩)
    omega
  used := by
    intro d hd hi ha
    obtain ⟨c, hc, h⟩ := holds he (ob := (activeCond d, users d.file d.name))
      (by
        simp only [obls, List.mem_append, List.mem_flatMap]
        exact .inl (.inr ⟨d, hd, by simp [usedObls, hi]⟩))
      (active_iff.mp ha)
    simp only [users, List.mem_flatMap, List.mem_map, List.mem_filter, decide_eq_true_eq] at hc
    obtain ⟨d', hd', ⟨c', n⟩, ⟨hn, rfl⟩, rfl⟩ := hc
    simp only [Cond.eval, Bool.and_eq_true] at h
    exact ⟨d', hd', holds_active h.1, c', hn, h.2⟩

theorem reason_of {e : Env} (he : Consistent e) {d : Def} (hd : d ∈ defs) (ha : Active e d) {c : Cond} {m : Method}
    (hn : (c, Need.method m) ∈ d.needs) (hc : c.eval e = true) : (reason m).eval e = true := by
  obtain ⟨c', hc', h⟩ := holds he (ob := (.all (activeCond d) c, [reason m]))
    (by
      simp only [obls, List.mem_append, List.mem_flatMap]
      exact .inr ⟨d, hd, List.mem_filterMap.mpr ⟨_, hn, rfl⟩⟩)
    (by simp [Cond.eval, active_iff.mp ha, hc])
  rw [List.mem_singleton] at hc'
  rwa [hc'] at h

end PM2.Crate
