import Verif.Proof.HeapRun
import Verif.Proof.Writer
import Verif.Spec.HeapPrint
/-!
# Printing from the heap
-/

namespace PM2
open Heap Heap.HPrinter Spec

/-! ### Heaps with larger counts -/

/-- The heap, with the counts of its cells raised. -/
def raise (h : Heap) (f : Nat → Nat) : Heap :=
  h.mapIdx (fun i o => o.map (fun c => ⟨c.rc + f i, c.vec⟩))

theorem get_raise (h : Heap) (f : Nat → Nat) (a : Nat) :
    (raise h f).get a = (h.get a).map (fun c => ⟨c.rc + f a, c.vec⟩) := by
  unfold Heap.get raise
  rw [List.getElem?_mapIdx]
  cases h[a]? with
  | none => rfl
  | some o => rfl

theorem raise_getElem? (h : Heap) (f : Nat → Nat) (a : Nat) :
    (raise h f)[a]? = (h[a]?).map (fun o => o.map (fun c => ⟨c.rc + f a, c.vec⟩)) := by
  unfold raise
  rw [List.getElem?_mapIdx]

theorem raise_congr {h : Heap} {f g : Nat → Nat} (hfg : ∀ a c, h.get a = some c → f a = g a) : raise h f = raise h g := by
  refine List.ext_getElem? fun a => ?_
  rw [raise_getElem?, raise_getElem?]
  cases e : h[a]? with
  | none => rfl
  | some o =>
    cases o with
    | none => rfl
    | some c =>
      have := hfg a c (by unfold Heap.get; rw [e]; rfl)
      simp [this]

theorem raise_zero (h : Heap) : raise h (fun _ => 0) = h := by
  refine List.ext_getElem? fun a => ?_
  rw [raise_getElem?]
  cases e : h[a]? with
  | none => rfl
  | some o => cases o <;> rfl

theorem raise_raise (h : Heap) (f g : Nat → Nat) : raise (raise h f) g = raise h (fun x => f x + g x) := by
  refine List.ext_getElem? fun a => ?_
  rw [raise_getElem?, raise_getElem?, raise_getElem?]
  cases e : h[a]? with
  | none => rfl
  | some o => cases o <;> simp [Nat.add_assoc]

/-- `h.set` of a raised cell. -/
theorem set_raise {h : Heap} {f : Nat → Nat} {a : Nat} {c : Cell} (hg : h.get a = some c) (k : Nat) :
    (raise h f).set a (some ⟨c.rc + k, c.vec⟩) = raise h (fun x => if x = a then k else f x) := by
  have ha := get_lt hg
  refine List.ext_getElem? fun b => ?_
  rw [List.getElem?_set, raise_getElem?, raise_getElem?]
  by_cases hb : a = b
  · subst hb
    have hl := get_length hg
    rw [if_pos rfl, if_pos (by simpa [raise] using hl), ha]
    simp
  · rw [if_neg hb]
    simp only [if_neg (fun e => hb e.symm : ¬ b = a)]

theorem rcClone_raise {h : Heap} {f : Nat → Nat} {a : Nat} {c : Cell} (hg : h.get a = some c) :
    rcClone (raise h f) a = .ok (raise h (fun x => if x = a then f a + 1 else f x)) := by
  unfold rcClone
  rw [read_some (c := ⟨c.rc + f a, c.vec⟩) (by rw [get_raise, hg]; rfl)]
  simp only [bind, Res.bind]
  rw [← set_raise hg (f a + 1), Nat.add_assoc]

theorem cloneTree_raise {h : Heap} {f : Nat → Nat} {t : HTree} {t' : TokenTree} (hs : Shows h [t] [t']) :
    cloneTree (raise h f) t = .ok (raise h (fun x => f x + t.ref.count x)) := by
  cases hs with
  | @group d a s c inner _ _ hg _ _ =>
    simp only [cloneTree]
    rw [rcClone_raise hg]
    congr 1
    apply raise_congr
    intro b _ _
    by_cases hb : b = a
    · subst hb; simp [HTree.ref]
    · simp [HTree.ref, hb, List.count_cons, Ne.symm hb]
  | _ => simp [cloneTree, HTree.ref]

theorem shows_head {h : Heap} {t : HTree} {l : List HTree} {ts : List TokenTree} (hs : Shows h (t :: l) ts) :
    ∃ t' us, ts = t' :: us ∧ Shows h [t] [t'] ∧ Shows h l us := by
  cases hs with
  | ident h1 => exact ⟨_, _, rfl, .ident .nil, h1⟩
  | punct h1 => exact ⟨_, _, rfl, .punct .nil, h1⟩
  | literal h1 => exact ⟨_, _, rfl, .literal .nil, h1⟩
  | group h1 h2 h3 => exact ⟨_, _, rfl, .group h1 h2 .nil, h3⟩

theorem cloneVec_raise {h : Heap} : ∀ {l : List HTree} {ts : List TokenTree} {f : Nat → Nat}, Shows h l ts →
    cloneVec (raise h f) l = .ok (raise h (fun x => f x + (refs l).count x))
  | [], _, f, _ => by
    simp only [cloneVec, refs_nil, List.count_nil, Nat.add_zero]
  | t :: l, _, f, hs => by
    obtain ⟨t', us, rfl, h1, h2⟩ := shows_head hs
    simp only [cloneVec]
    rw [cloneTree_raise h1]
    simp only [bind, Res.bind]
    rw [cloneVec_raise h2]
    congr 2
    funext x
    simp only [refs_cons, List.count_append]
    omega

theorem shows_raise {h : Heap} {f : Nat → Nat} {l : List HTree} {ts : List TokenTree} (hs : Shows h l ts) :
    Shows (raise h f) l ts := by
  induction hs with
  | nil => exact .nil
  | ident _ ih => exact .ident ih
  | punct _ ih => exact .punct ih
  | literal _ ih => exact .literal ih
  | @group d a s c inner _ _ hg _ _ ih1 ih2 =>
    exact .group (c := ⟨c.rc + f a, c.vec⟩) (by rw [get_raise, hg]; rfl) ih1 ih2

/-- Every cell has an owner. -/
def Counted (h : Heap) : Prop := ∀ a c, h.get a = some c → 0 < c.rc

theorem Counted.raise {h : Heap} (hc : Counted h) (f : Nat → Nat) : Counted (PM2.raise h f) := by
  intro a c hg
  rw [get_raise] at hg
  cases e : h.get a with
  | none => rw [e] at hg; cases hg
  | some c' =>
    rw [e] at hg
    have := hc a c' e
    cases hg
    simp only
    omega

theorem dropTree_raise {h : Heap} (hc : Counted h) {f : Nat → Nat} {t : HTree} {t' : TokenTree} (hs : Shows h [t] [t'])
    (d : Nat) : dropTree (d + 1) (raise h (fun x => f x + t.ref.count x)) t = .ok (raise h f) := by
  cases hs with
  | @group dl a s c inner _ _ hg _ _ =>
    have hpos := hc a c hg
    simp only [dropTree, dropTreeWith]
    rw [dropStream_shared (c := ⟨c.rc + (f a + 1), c.vec⟩)]
    · congr 1
      have : (⟨(⟨c.rc + (f a + 1), c.vec⟩ : Cell).rc - 1, c.vec⟩ : Cell) = ⟨c.rc + f a, c.vec⟩ := by simp
      simp only [this]
      rw [set_raise hg]
      apply raise_congr
      intro b _ _
      by_cases hb : b = a
      · subst hb; simp
      · simp [HTree.ref, hb, List.count_cons, Ne.symm hb]
    · rw [get_raise, hg]; simp [HTree.ref]
    · simp only; omega
  | _ => simp [dropTree, dropTreeWith, HTree.ref]

theorem cloneIntoIter_raise {h : Heap} (hc : Counted h) {a : Nat} {c : Cell} (hg : h.get a = some c)
    {ts : List TokenTree} (hs : Shows h c.vec ts) :
    cloneIntoIter a h = .ok (raise h (fun x => (refs c.vec).count x), c.vec) := by
  have hpos := hc a c hg
  unfold cloneIntoIter
  conv => lhs; rw [← raise_zero h]
  rw [rcClone_raise hg]
  simp only [bind, Res.bind]
  unfold takeInner
  rw [read_some (c := ⟨c.rc + 1, c.vec⟩) (by rw [get_raise, hg]; simp)]
  simp only [bind, Res.bind]
  rw [if_neg (by omega), cloneVec_raise hs]
  simp only
  have e : ∀ f : Nat → Nat, 0 < f a → rcDrop (dropTree dropDepth) (raise h f) a =
      .ok (raise h (fun x => if x = a then f a - 1 else f x)) := by
    intro f hf
    rw [rcDrop_shared (c := ⟨c.rc + f a, c.vec⟩)]
    · congr 1
      rw [← set_raise hg (f a - 1)]
      congr 3
      simp only
      omega
    · rw [get_raise, hg]; rfl
    · simp only; omega
  rw [e _ (by simp; omega)]
  simp only
  congr 2
  apply raise_congr
  intro b _ _
  by_cases hb : b = a
  · subst hb; simp
  · simp [hb]

theorem cloneIter_raise {h : Heap} {l : List HTree} {ts : List TokenTree} (hs : Shows h l ts) :
    cloneIter l h = .ok (raise h (fun x => (refs l).count x), l) := by
  unfold cloneIter
  conv => lhs; rw [← raise_zero h]
  rw [cloneVec_raise hs]
  simp only [bind, Res.bind, Nat.zero_add]

/-! ### Printers -/

/-- The printer on the heap does to every writer what the other does, and leaves the heap as it was. -/
def PrintsAs (p : HPrinter) (q : Printer) (h : Heap) : Prop :=
  ∀ (σ : Type) (w : Writer σ) (s : σ), p.run σ w s h = .ok (q.run σ w s, h)

theorem PrintsAs.lift (q : Printer) (h : Heap) : PrintsAs (HPrinter.lift q) q h := fun _ _ _ => rfl

theorem PrintsAs.seq {p p' : HPrinter} {q q' : Printer} {h : Heap} (h1 : PrintsAs p q h) (h2 : PrintsAs p' q' h) :
    PrintsAs (HPrinter.seq p p') (Printer.seq q q') h := by
  intro σ w s
  simp only [HPrinter.seq, Printer.seq, h1 σ w s]
  rcases q.run σ w s with ⟨s', b⟩
  cases b
  · rfl
  · exact h2 σ w s'

theorem PrintsAs.indent {p : HPrinter} {q : Printer} {h : Heap} (h1 : PrintsAs p q h) :
    PrintsAs (HPrinter.indent p) (Printer.indent q) h := by
  intro σ w s
  simp only [HPrinter.indent, Printer.indent, h1 _ _ _]

theorem PrintsAs.look {a : Addr} {f : Cell → HPrinter} {q : Printer} {h : Heap} {c : Cell} (hg : h.get a = some c)
    (h1 : PrintsAs (f c) q h) : PrintsAs (HPrinter.look a f) q h := by
  intro σ w s
  simp only [HPrinter.look, read_some hg]
  exact h1 σ w s

/-! ### `Display` -/

theorem nesting_cons {t : TokenTree} {ts : List TokenTree} {n : Nat} (h : streamNesting (t :: ts) ≤ n) :
    treeNesting t ≤ n ∧ streamNesting ts ≤ n := by
  rw [streamNesting] at h
  omega

theorem jointAfterH_eq {h : Heap} {t : HTree} {t' : TokenTree} (hs : Shows h [t] [t']) : jointAfterH t = jointAfter t' := by
  cases hs <;> rfl

theorem isEmpty_eq {h : Heap} {l : List HTree} {ts : List TokenTree} (hs : Shows h l ts) : l.isEmpty = ts.isEmpty := by
  cases hs <;> rfl

theorem displayLoopH_as {h : Heap} {o : FmtOpts} {printT : HTree → HPrinter} {n : Nat}
    (hp : ∀ t t', Shows h [t] [t'] → treeNesting t' ≤ n → PrintsAs (printT t) (displayTreeTo {} t') h) :
    ∀ {l : List HTree} {ts : List TokenTree}, Shows h l ts → streamNesting ts ≤ n → ∀ first joint,
      PrintsAs (displayLoopH printT l first joint) (displayLoopTo o ts first joint) h
  | [], _, hs, _, _, _ => by cases hs; rw [displayLoopTo]; exact .lift _ h
  | t :: l, _, hs, hn, first, joint => by
    obtain ⟨t', us, rfl, h1, h2⟩ := shows_head hs
    obtain ⟨n1, n2⟩ := nesting_cons hn
    rw [displayLoopTo, displayLoopH, jointAfterH_eq h1]
    exact (PrintsAs.lift _ h).seq ((hp t t' h1 n1).seq (displayLoopH_as hp h2 n2 _ _))

theorem displayTreeH_as {h : Heap} : ∀ {n : Nat} (o : FmtOpts) {t : HTree} {t' : TokenTree}, Shows h [t] [t'] →
    treeNesting t' ≤ n → PrintsAs (displayTreeH o n t) (displayTreeTo o t') h := by
  intro n
  induction n with
  | zero =>
    intro o t t' hs hn
    cases hs with
    | group _ _ _ => rw [treeNesting] at hn; omega
    | _ => rw [displayTreeH, displayTreeTo] <;> first | exact .lift _ h | intros; simp_all
  | succ n ih =>
    intro o t t' hs hn
    cases hs with
    | @group d a s c inner _ _ hg h1 _ =>
      rw [treeNesting] at hn
      rw [displayTreeH, displayTreeTo]
      refine (PrintsAs.lift _ h).seq (PrintsAs.seq (.look hg ?_) (PrintsAs.seq (.look hg ?_) (.lift _ h)))
      · exact displayLoopH_as (fun _ _ h2 h3 => ih {} h2 h3) h1 (by omega) _ _
      · rw [isEmpty_eq h1]; exact .lift _ h
    | _ => rw [displayTreeH, displayTreeTo] <;> first | exact .lift _ h | intros; simp_all

theorem displayH_as {h : Heap} {n : Nat} {o : FmtOpts} {a : Addr} {c : Cell} {ts : List TokenTree} (hg : h.get a = some c)
    (hs : Shows h c.vec ts) (hn : streamNesting ts ≤ n) : PrintsAs (displayH n a) (displayTo o ts) h :=
  .look hg (displayLoopH_as (fun _ _ h2 h3 => displayTreeH_as {} h2 h3) hs hn _ _)

/-! ### `Debug` -/

/-- The fields print as the others. -/
inductive FieldsAs (h : Heap) : List (List Char × HPrinter) → List (List Char × Printer) → Prop
  | nil : FieldsAs h [] []
  | cons {name p q ps qs} : PrintsAs p q h → FieldsAs h ps qs → FieldsAs h ((name, p) :: ps) ((name, q) :: qs)

theorem FieldsAs.lift (h : Heap) : ∀ qs : List (List Char × Printer), FieldsAs h (qs.map (fun f => (f.1, HPrinter.lift f.2))) qs
  | [] => .nil
  | (name, q) :: qs => .cons (.lift q h) (FieldsAs.lift h qs)

theorem structFieldsH_as {h : Heap} {alternate : Bool} {ps : List (List Char × HPrinter)} {qs : List (List Char × Printer)}
    (hf : FieldsAs h ps qs) : ∀ hasFields, PrintsAs (structFieldsH alternate hasFields ps) (structFields alternate hasFields qs) h := by
  induction hf with
  | nil => intro _; rw [structFieldsH, structFields]; exact .lift _ h
  | @cons name p q ps qs hp _ ih =>
    intro b
    rw [structFieldsH, structFields]
    refine PrintsAs.seq ?_ (ih true)
    cases alternate
    · exact (PrintsAs.lift _ h).seq ((PrintsAs.lift _ h).seq ((PrintsAs.lift _ h).seq hp))
    · exact (PrintsAs.lift _ h).seq
        (PrintsAs.indent ((PrintsAs.lift _ h).seq ((PrintsAs.lift _ h).seq (hp.seq (.lift _ h)))))

theorem debugStructH_as {h : Heap} {alternate : Bool} {name : List Char} {ps : List (List Char × HPrinter)}
    {qs : List (List Char × Printer)} (hf : FieldsAs h ps qs) :
    PrintsAs (debugStructH alternate name ps) (debugStructTo alternate name qs) h := by
  have he : ps.isEmpty = qs.isEmpty := by cases hf <;> rfl
  rw [debugStructH, debugStructTo, he]
  exact (PrintsAs.lift _ h).seq ((structFieldsH_as hf false).seq (.lift _ h))

/-- an entry of a list, when the trees are not on the heap -/
def entryTo (alternate hasFields : Bool) (q : Printer) : Printer :=
  if alternate then
    (if hasFields then Printer.done else .str ['\n']) ?; Printer.indent (q ?; .str [',', '\n'])
  else
    (if hasFields then .str [',', ' '] else Printer.done) ?; q

theorem listEntries_cons (alternate hasFields : Bool) (q : Printer) (qs : List Printer) :
    listEntries alternate hasFields (q :: qs) = entryTo alternate hasFields q ?; listEntries alternate true qs := by
  rw [listEntries]; rfl

theorem entryH_as {h : Heap} {alternate hasFields : Bool} {p : HPrinter} {q : Printer} (hp : PrintsAs p q h) :
    PrintsAs (entryH alternate hasFields p) (entryTo alternate hasFields q) h := by
  unfold entryH entryTo
  cases alternate
  · exact (PrintsAs.lift _ h).seq hp
  · exact (PrintsAs.lift _ h).seq (PrintsAs.indent (hp.seq (.lift _ h)))

section
variable [UnicodeTables]

theorem entriesH_as {h : Heap} (hc : Counted h) {loc alternate : Bool} {printT : HTree → HPrinter} {n : Nat}
    (hp : ∀ g t t', Shows h [t] [t'] → treeNesting t' ≤ n →
      PrintsAs (printT t) (debugTreeTo loc alternate t') (raise h g)) {σ : Type} {w : Writer σ} :
    ∀ {l : List HTree} {ts : List TokenTree}, Shows h l ts → streamNesting ts ≤ n → ∀ ok hasFields (s : σ),
      (entriesH alternate printT ok hasFields l).run σ w s (raise h (fun x => (refs l).count x)) =
        .ok (if ok then (listEntries alternate hasFields (debugTreesTo loc alternate ts)).run σ w s else (s, false), h)
  | [], _, hs, _, ok, hasFields, s => by
    cases hs
    rw [debugTreesTo, listEntries]
    simp only [entriesH, refs_nil, List.count_nil, raise_zero]
    cases ok <;> rfl
  | t :: l, _, hs, hn, ok, hasFields, s => by
    obtain ⟨t', us, rfl, h1, h2⟩ := shows_head hs
    obtain ⟨n1, n2⟩ := nesting_cons hn
    have hd : dropTree dropDepth (raise h (fun x => (refs (t :: l)).count x)) t =
        .ok (raise h (fun x => (refs l).count x)) := by
      have := dropTree_raise hc (f := fun x => (refs l).count x) h1 1
      rw [← this]
      congr 2
      funext x
      simp only [refs_cons, List.count_append]
      omega
    simp only [entriesH, HPrinter.andThen]
    cases ok with
    | false =>
      simp only [Bool.false_eq_true, if_false, hd]
      have := entriesH_as hc hp h2 n2 false true s (w := w)
      simpa using this
    | true =>
      have e := entryH_as (alternate := alternate) (hasFields := hasFields) (hp (fun x => (refs (t :: l)).count x) t t' h1 n1)
      simp only [if_true]
      rw [e σ w s, debugTreesTo, listEntries_cons]
      unfold Printer.seq
      simp only []
      generalize (entryTo alternate hasFields (debugTreeTo loc alternate t')).run σ w s = r
      obtain ⟨s', b⟩ := r
      simp only [hd]
      have := entriesH_as hc hp h2 n2 b true s' (w := w)
      rw [this]
      cases b <;> rfl

theorem debugListH_as {h : Heap} (hc : Counted h) {loc alternate : Bool} {printT : HTree → HPrinter} {n : Nat}
    (hp : ∀ g t t', Shows h [t] [t'] → treeNesting t' ≤ n →
      PrintsAs (printT t) (debugTreeTo loc alternate t') (raise h g))
    {l : List HTree} {ts : List TokenTree} (hs : Shows h l ts) (hn : streamNesting ts ≤ n)
    {clone : Heap → Res Unit (Heap × List HTree)} (hcl : clone h = .ok (raise h (fun x => (refs l).count x), l)) :
    PrintsAs (debugListH alternate printT clone) (debugListTo alternate (debugTreesTo loc alternate ts)) h := by
  intro σ w s
  simp only [debugListH, debugListTo, HPrinter.seq, HPrinter.change, hcl]
  rw [entriesH_as hc hp hs hn]
  simp only [Printer.seq, Printer.str]
  obtain ⟨s', b⟩ := w s ['[']
  cases b
  · rfl
  · simp only [if_true]
    obtain ⟨s2, b2⟩ := (listEntries alternate false (debugTreesTo loc alternate ts)).run σ w s'
    cases b2 <;> rfl

theorem debugTreeH_as {loc alternate : Bool} : ∀ {n : Nat} {h : Heap}, Counted h → ∀ {t : HTree} {t' : TokenTree},
    Shows h [t] [t'] → treeNesting t' ≤ n → PrintsAs (debugTreeH loc alternate n t) (debugTreeTo loc alternate t') h := by
  intro n
  induction n with
  | zero =>
    intro h hc t t' hs hn
    cases hs with
    | group _ _ _ => rw [treeNesting] at hn; omega
    | _ => rw [debugTreeH, debugTreeTo] <;> first | exact .lift _ h | intros; simp_all
  | succ n ih =>
    intro h hc t t' hs hn
    cases hs with
    | @group d a s c inner _ _ hg h1 _ =>
      rw [treeNesting] at hn
      rw [debugTreeH, debugTreeTo]
      refine debugStructH_as (.cons (.lift _ h) (.cons ((PrintsAs.lift _ h).seq ?_) (FieldsAs.lift h _)))
      exact debugListH_as hc (fun g _ _ h2 h3 => ih (hc.raise g) (shows_raise h2) h3) h1 (by omega)
        (cloneIntoIter_raise hc hg h1)
    | _ => rw [debugTreeH, debugTreeTo] <;> first | exact .lift _ h | intros; simp_all

theorem debugStreamH_as {h : Heap} (hc : Counted h) {loc alternate : Bool} {n : Nat} {a : Addr} {c : Cell}
    {ts : List TokenTree} (hg : h.get a = some c) (hs : Shows h c.vec ts) (hn : streamNesting ts ≤ n) :
    PrintsAs (debugStreamH loc alternate n a) (debugStreamTo loc alternate ts) h :=
  (PrintsAs.lift _ h).seq (debugListH_as hc (fun g _ _ h2 h3 => debugTreeH_as (hc.raise g) (shows_raise h2) h3) hs hn
    (cloneIntoIter_raise hc hg hs))

theorem debugIterH_as {h : Heap} (hc : Counted h) {loc alternate : Bool} {n : Nat} {l : List HTree}
    {ts : List TokenTree} (hs : Shows h l ts) (hn : streamNesting ts ≤ n) :
    PrintsAs (debugIterH loc alternate n l) (debugStreamTo loc alternate ts) h :=
  (PrintsAs.lift _ h).seq (debugListH_as hc (fun g _ _ h2 h3 => debugTreeH_as (hc.raise g) (shows_raise h2) h3) hs hn
    (cloneIter_raise hs))

end

/-! ### Too deep -/

theorem padWriter_never {σ : Type} {w : Writer σ} (hw : NeverFails w) : NeverFails (padWriter w) := by
  have key : ∀ (ls : List (List Char)) (s : σ × Bool), (padLines w s ls).2 = true := by
    intro ls
    induction ls with
    | nil => intro s; rfl
    | cons l ls ih =>
      intro s
      obtain ⟨s, b⟩ := s
      have e1 : ∀ x : σ × Bool, x.2 = true → ∃ s', x = (s', true) := fun x hx => ⟨x.1, by rw [← hx]⟩
      obtain ⟨s1, h1⟩ := e1 (if b then w s [' ', ' ', ' ', ' '] else (s, true)) (by split <;> simp [hw _ _])
      obtain ⟨s2, h2⟩ := e1 (w s1 l) (hw _ _)
      simp only [padLines, h1, h2]
      exact ih _
  exact fun s c => key _ s

theorem writes_true {q : Printer} {text : List Char} (hq : Writes q text) {σ : Type} {w : Writer σ} (hw : NeverFails w)
    (s : σ) : (q.run σ w s).2 = true := by
  obtain ⟨cs, -, h⟩ := hq
  rw [h]
  clear h
  induction cs generalizing s with
  | nil => rfl
  | cons c cs ih => rw [writeAll, if_pos (hw s c)]; exact ih _

/-- The printer does not end, unless the writer fails. -/
def Deep (p : HPrinter) (h : Heap) : Prop :=
  ∀ (σ : Type) (w : Writer σ), NeverFails w → ∀ s, p.run σ w s h = .diverge

theorem Deep.left {p p' : HPrinter} {h : Heap} (h1 : Deep p h) : Deep (HPrinter.seq p p') h := by
  intro σ w hw s
  simp only [HPrinter.seq, h1 σ w hw s]

theorem Deep.right {p p' : HPrinter} {q : Printer} {text : List Char} {h : Heap} (hp : PrintsAs p q h) (hq : Writes q text)
    (h1 : Deep p' h) : Deep (HPrinter.seq p p') h := by
  intro σ w hw s
  have e := writes_true hq hw s
  simp only [HPrinter.seq, hp σ w s]
  generalize q.run σ w s = r at e
  obtain ⟨s', b⟩ := r
  simp only at e
  subst e
  exact h1 σ w hw s'

theorem Deep.lifted {p : HPrinter} {q : Printer} {text : List Char} {h : Heap} (hq : Writes q text) (h1 : Deep p h) :
    Deep (HPrinter.seq (HPrinter.lift q) p) h := Deep.right (.lift q h) hq h1

theorem Deep.indent {p : HPrinter} {h : Heap} (h1 : Deep p h) : Deep (HPrinter.indent p) h := by
  intro σ w hw s
  simp only [HPrinter.indent, h1 _ _ (padWriter_never hw) _]

theorem Deep.look {a : Addr} {f : Cell → HPrinter} {h : Heap} {c : Cell} (hg : h.get a = some c)
    (h1 : Deep (f c) h) : Deep (HPrinter.look a f) h := by
  intro σ w hw s
  simp only [HPrinter.look, read_some hg]
  exact h1 σ w hw s

theorem space_writes (b : Bool) : ∃ t, Writes (if b then Printer.str [' '] else Printer.done) t := by
  cases b
  · exact ⟨_, Writes.done⟩
  · exact ⟨_, Writes.str _⟩

theorem displayLoopH_deep {h : Heap} {printT : HTree → HPrinter} {n : Nat}
    (hp : ∀ t t', Shows h [t] [t'] → treeNesting t' ≤ n → PrintsAs (printT t) (displayTreeTo {} t') h)
    (hd : ∀ t t', Shows h [t] [t'] → n < treeNesting t' → Deep (printT t) h) :
    ∀ {l : List HTree} {ts : List TokenTree}, Shows h l ts → n < streamNesting ts → ∀ first joint,
      Deep (displayLoopH printT l first joint) h
  | [], _, hs, hn, _, _ => by cases hs; rw [streamNesting] at hn; omega
  | t :: l, _, hs, hn, first, joint => by
    obtain ⟨t', us, rfl, h1, h2⟩ := shows_head hs
    rw [displayLoopH]
    obtain ⟨tx, hx⟩ := space_writes (!first && !joint)
    refine Deep.lifted hx ?_
    by_cases hn1 : n < treeNesting t'
    · exact (hd t t' h1 hn1).left
    · rw [streamNesting] at hn
      exact Deep.right (hp t t' h1 (by omega)) (displayTreeTo_writes {} t')
        (displayLoopH_deep hp hd h2 (by omega) _ _)

theorem displayTreeH_deep {h : Heap} : ∀ {n : Nat} (o : FmtOpts) {t : HTree} {t' : TokenTree}, Shows h [t] [t'] →
    n < treeNesting t' → Deep (displayTreeH o n t) h := by
  intro n
  induction n with
  | zero =>
    intro o t t' hs hn
    cases hs with
    | group _ _ _ => rw [displayTreeH]; exact fun _ _ _ _ => rfl
    | _ => simp [treeNesting] at hn
  | succ n ih =>
    intro o t t' hs hn
    cases hs with
    | @group d a s c inner _ _ hg h1 _ =>
      rw [treeNesting] at hn
      rw [displayTreeH]
      refine Deep.lifted (.str _) (Deep.left (.look hg ?_))
      exact displayLoopH_deep (fun _ _ h2 h3 => displayTreeH_as {} h2 h3) (fun _ _ h2 h3 => ih {} h2 h3) h1 (by omega) _ _
    | _ => simp [treeNesting] at hn

theorem displayH_deep {h : Heap} {n : Nat} {a : Addr} {c : Cell} {ts : List TokenTree} (hg : h.get a = some c)
    (hs : Shows h c.vec ts) (hn : n < streamNesting ts) : Deep (displayH n a) h :=
  .look hg (displayLoopH_deep (fun _ _ h2 h3 => displayTreeH_as {} h2 h3) (fun _ _ h2 h3 => displayTreeH_deep {} h2 h3) hs hn _ _)

section
variable [UnicodeTables]

theorem structFieldsH_deep {h : Heap} {alternate : Bool} {name : List Char} {p : HPrinter} {ps : List (List Char × HPrinter)}
    (hp : Deep p h) (hasFields : Bool) : Deep (structFieldsH alternate hasFields ((name, p) :: ps)) h := by
  rw [structFieldsH]
  refine Deep.left ?_
  cases alternate
  · exact Deep.lifted (.str _) (Deep.lifted (.str _) (Deep.lifted (.str _) hp))
  · have hx : ∃ t, Writes (if hasFields then Printer.done else Printer.str [' ', '{', '\n']) t := by
      cases hasFields
      · exact ⟨_, Writes.str _⟩
      · exact ⟨_, Writes.done⟩
    obtain ⟨t, hx⟩ := hx
    exact Deep.lifted hx (Deep.indent (Deep.lifted (.str _) (Deep.lifted (.str _) hp.left)))

theorem entryH_deep {h : Heap} {alternate hasFields : Bool} {p : HPrinter} (hp : Deep p h) :
    Deep (entryH alternate hasFields p) h := by
  unfold entryH
  cases alternate
  · have hx : ∃ t, Writes (if hasFields then Printer.str [',', ' '] else Printer.done) t := by
      cases hasFields
      · exact ⟨_, Writes.done⟩
      · exact ⟨_, Writes.str _⟩
    obtain ⟨t, hx⟩ := hx
    exact Deep.lifted hx hp
  · have hx : ∃ t, Writes (if hasFields then Printer.done else Printer.str ['\n']) t := by
      cases hasFields
      · exact ⟨_, Writes.str _⟩
      · exact ⟨_, Writes.done⟩
    obtain ⟨t, hx⟩ := hx
    exact Deep.lifted hx (Deep.indent hp.left)

theorem entry_writes {alternate hasFields : Bool} {q : Printer} {text : List Char} (hq : Writes q text) :
    ∃ t, Writes (entryTo alternate hasFields q) t := by
  unfold entryTo
  cases alternate <;> cases hasFields
  · exact ⟨_, Writes.done.seq hq⟩
  · exact ⟨_, (Writes.str _).seq hq⟩
  · exact ⟨_, (Writes.str _).seq (Writes.indent (hq.seq (.str _)))⟩
  · exact ⟨_, Writes.done.seq (Writes.indent (hq.seq (.str _)))⟩

theorem entriesH_deep {h : Heap} (hc : Counted h) {loc alternate : Bool} {printT : HTree → HPrinter} {n : Nat}
    (hp : ∀ g t t', Shows h [t] [t'] → treeNesting t' ≤ n →
      PrintsAs (printT t) (debugTreeTo loc alternate t') (raise h g))
    (hd : ∀ g t t', Shows h [t] [t'] → n < treeNesting t' → Deep (printT t) (raise h g)) {σ : Type} {w : Writer σ}
    (hw : NeverFails w) :
    ∀ {l : List HTree} {ts : List TokenTree}, Shows h l ts → n < streamNesting ts → ∀ hasFields (s : σ),
      (entriesH alternate printT true hasFields l).run σ w s (raise h (fun x => (refs l).count x)) = .diverge
  | [], _, hs, hn, _, _ => by cases hs; rw [streamNesting] at hn; omega
  | t :: l, _, hs, hn, hasFields, s => by
    obtain ⟨t', us, rfl, h1, h2⟩ := shows_head hs
    simp only [entriesH, HPrinter.andThen, if_true]
    by_cases hn1 : n < treeNesting t'
    · rw [entryH_deep (hd _ t t' h1 hn1) σ w hw s]
    · rw [streamNesting] at hn
      have hd' : dropTree dropDepth (raise h (fun x => (refs (t :: l)).count x)) t =
          .ok (raise h (fun x => (refs l).count x)) := by
        have := dropTree_raise hc (f := fun x => (refs l).count x) h1 1
        rw [← this]
        congr 2
        funext x
        simp only [refs_cons, List.count_append]
        omega
      have e := entryH_as (alternate := alternate) (hasFields := hasFields)
        (hp (fun x => (refs (t :: l)).count x) t t' h1 (by omega))
      rw [e σ w s]
      obtain ⟨tx, hx⟩ := entry_writes (alternate := alternate) (hasFields := hasFields) (debugTreeTo_writes loc alternate t')
      have hb := writes_true hx hw s
      revert hb
      generalize (entryTo alternate hasFields (debugTreeTo loc alternate t')).run σ w s = r
      intro hb
      obtain ⟨s', b⟩ := r
      simp only at hb
      subst hb
      simp only [hd']
      exact entriesH_deep hc hp hd hw h2 (by omega) true s'

theorem debugListH_deep {h : Heap} (hc : Counted h) {loc alternate : Bool} {printT : HTree → HPrinter} {n : Nat}
    (hp : ∀ g t t', Shows h [t] [t'] → treeNesting t' ≤ n →
      PrintsAs (printT t) (debugTreeTo loc alternate t') (raise h g))
    (hd : ∀ g t t', Shows h [t] [t'] → n < treeNesting t' → Deep (printT t) (raise h g))
    {l : List HTree} {ts : List TokenTree} (hs : Shows h l ts) (hn : n < streamNesting ts)
    {clone : Heap → Res Unit (Heap × List HTree)} (hcl : clone h = .ok (raise h (fun x => (refs l).count x), l)) :
    Deep (debugListH alternate printT clone) h := by
  intro σ w hw s
  simp only [debugListH, HPrinter.seq, HPrinter.change, hcl]
  rw [hw s _, entriesH_deep hc hp hd hw hs hn]

theorem debugTreeH_deep {loc alternate : Bool} : ∀ {n : Nat} {h : Heap}, Counted h → ∀ {t : HTree} {t' : TokenTree},
    Shows h [t] [t'] → n < treeNesting t' → Deep (debugTreeH loc alternate n t) h := by
  intro n
  induction n with
  | zero =>
    intro h hc t t' hs hn
    cases hs with
    | group _ _ _ => rw [debugTreeH]; exact fun _ _ _ _ => rfl
    | _ => simp [treeNesting] at hn
  | succ n ih =>
    intro h hc t t' hs hn
    cases hs with
    | @group d a s c inner _ _ hg h1 _ =>
      rw [treeNesting] at hn
      rw [debugTreeH, debugStructH]
      refine Deep.lifted (.str _) (Deep.left ?_)
      rw [structFieldsH]
      have h0 := structFieldsH_as (alternate := alternate) (.cons (name := "delimiter".toList) (.lift (.str (debugDelimiter d)) h) .nil) false
      have hdeep : Deep (HPrinter.lift (.str "TokenStream ".toList) ?;;
          debugListH alternate (debugTreeH loc alternate n) (cloneIntoIter a)) h :=
        Deep.lifted (.str _) (debugListH_deep hc (fun g _ _ h2 h3 => debugTreeH_as (hc.raise g) (shows_raise h2) h3)
          (fun g _ _ h2 h3 => ih (hc.raise g) (shows_raise h2) h3) h1 (by omega) (cloneIntoIter_raise hc hg h1))
      have hs := structFieldsH_deep (alternate := alternate) (name := "stream".toList) (ps := debugSpanFieldH loc s) hdeep true
      cases alternate
      · exact Deep.right ((PrintsAs.lift _ h).seq ((PrintsAs.lift _ h).seq ((PrintsAs.lift _ h).seq (.lift _ h))))
          ((Writes.str _).seq ((Writes.str _).seq ((Writes.str _).seq (.str _)))) hs
      · exact Deep.right ((PrintsAs.lift _ h).seq
          (PrintsAs.indent ((PrintsAs.lift _ h).seq ((PrintsAs.lift _ h).seq ((PrintsAs.lift _ h).seq (.lift _ h))))))
          ((Writes.str _).seq (Writes.indent ((Writes.str _).seq ((Writes.str _).seq ((Writes.str _).seq (.str _)))))) hs
    | _ => simp [treeNesting] at hn

theorem debugStreamH_deep {h : Heap} (hc : Counted h) {loc alternate : Bool} {n : Nat} {a : Addr} {c : Cell}
    {ts : List TokenTree} (hg : h.get a = some c) (hs : Shows h c.vec ts) (hn : n < streamNesting ts) :
    Deep (debugStreamH loc alternate n a) h :=
  Deep.lifted (.str _) (debugListH_deep hc (fun g _ _ h2 h3 => debugTreeH_as (hc.raise g) (shows_raise h2) h3)
    (fun g _ _ h2 h3 => debugTreeH_deep (hc.raise g) (shows_raise h2) h3) hs hn (cloneIntoIter_raise hc hg hs))

theorem debugIterH_deep {h : Heap} (hc : Counted h) {loc alternate : Bool} {n : Nat} {l : List HTree}
    {ts : List TokenTree} (hs : Shows h l ts) (hn : n < streamNesting ts) :
    Deep (debugIterH loc alternate n l) h :=
  Deep.lifted (.str _) (debugListH_deep hc (fun g _ _ h2 h3 => debugTreeH_as (hc.raise g) (shows_raise h2) h3)
    (fun g _ _ h2 h3 => debugTreeH_deep (hc.raise g) (shows_raise h2) h3) hs hn (cloneIter_raise hs))

end

end PM2
