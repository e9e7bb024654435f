import Verif.Model.Marker
/-! # C92: auto traits of the public types -/

namespace PM2.Props
open Auto

theorem Step.mono {N K : Type} {E : Env N K} {S S' : Trait → Ty N K → Prop} (h : ∀ tr t, S tr t → S' tr t)
    {tr : Trait} {t : Ty N K} (hs : Step E S tr t) : Step E S' tr t := by
  cases t with
  | plain => trivial
  | vec t => cases tr <;> first | exact h _ _ hs | exact ⟨h _ _ hs.1, h _ _ hs.2⟩
  | vecIntoIter t => cases tr <;> first | exact h _ _ hs | exact ⟨h _ _ hs.1, h _ _ hs.2⟩
  | rc t => cases tr <;> first | exact hs | exact h _ _ hs | exact ⟨hs.1, h _ _ hs.2⟩
  | phantom t => cases tr <;> exact h _ _ hs
  | foreign k => cases tr <;> exact hs
  | named n =>
    have key : (match E.source tr n with
        | .fields ts => ∀ t ∈ ts, S tr t
        | .explicit cs => ∀ c ∈ cs, S c.1 c.2) → (match E.source tr n with
        | .fields ts => ∀ t ∈ ts, S' tr t
        | .explicit cs => ∀ c ∈ cs, S' c.1 c.2) := by
      cases E.source tr n with
      | fields ts => exact fun hs t ht => h _ _ (hs t ht)
      | explicit cs => exact fun hs c hc => h _ _ (hs c hc)
    cases tr <;> exact key hs

theorem Impl.step {N K : Type} {E : Env N K} {tr : Trait} {t : Ty N K} (h : Impl E tr t) : Step E (Impl E) tr t := by
  obtain ⟨S, h1, h2⟩ := h
  exact Step.mono (fun tr t h => ⟨S, h1, h⟩) (h1 tr t h2)

section
variable {wrap newRc : Bool} {foreign : Trait → CompilerType → Prop}

/-- A struct has `Send` or `Sync` only if its fields have. -/
theorem field {tr : Trait} (htr : tr = .send ∨ tr = .sync) {n : TypeName} (h : Impl (crateEnv wrap foreign newRc) tr (.named n)) {t : T} (ht : t ∈ fieldsOf wrap n) :
    Impl (crateEnv wrap foreign newRc) tr t := by
  have := Impl.step h
  rcases htr with rfl | rfl <;> exact this t ht

theorem marker_not {tr : Trait} (htr : tr = .send ∨ tr = .sync) :
    ¬ Impl (crateEnv wrap foreign newRc) tr (.named .marker) := by
  intro h
  have h1 := Impl.step (field htr h (t := .phantom (.rc .plain)) (by simp [fieldsOf]))
  rcases htr with rfl | rfl <;> exact Impl.step h1

theorem stream_not {tr : Trait} (htr : tr = .send ∨ tr = .sync) :
    ¬ Impl (crateEnv wrap foreign newRc) tr (.named .fTokenStream) := by
  intro h
  have h1 := field htr h (t := .named .rcVec) (by simp [fieldsOf])
  have h2 := Impl.step (field htr h1 (t := .rc (.vec (.named .tokenTree))) (by simp [fieldsOf]))
  rcases htr with rfl | rfl <;> exact h2

/-- **C92.** No type that refers to tokens or positions is `Send` or `Sync`, whatever the compiler's types are. -/
theorem C92_local (wrap newRc : Bool) (foreign : Trait → CompilerType → Prop) {n : TypeName}
    (hn : n ∈ [.tokenStream, .lexError, .span, .tokenTree, .group, .punct, .ident, .literal, .intoIter, .delimSpan]) :
    ¬ Impl (crateEnv wrap foreign newRc) .send (.named n) ∧ ¬ Impl (crateEnv wrap foreign newRc) .sync (.named n) := by
  have key : ∀ tr, tr = .send ∨ tr = .sync → ¬ Impl (crateEnv wrap foreign newRc) tr (.named n) := by
    intro tr htr h
    have hm : ∀ n, Ty.named .marker ∈ fieldsOf wrap n → ¬ Impl (crateEnv wrap foreign newRc) tr (.named n) :=
      fun n hm h => marker_not htr (field htr h hm)
    have hid : ¬ Impl (crateEnv wrap foreign newRc) tr (.named .ident) := hm _ (by simp [fieldsOf])
    have hsp : ¬ Impl (crateEnv wrap foreign newRc) tr (.named .span) := hm _ (by simp [fieldsOf])
    simp only [List.mem_cons, List.not_mem_nil, or_false] at hn
    rcases hn with rfl | rfl | rfl | rfl | rfl | rfl | rfl | rfl | rfl | rfl
    case inr.inr.inr.inl => exact hid (field htr h (by simp [fieldsOf]))
    case inr.inr.inr.inr.inl =>
      have hf : Impl (crateEnv wrap foreign newRc) tr (.named .fGroup) := by
        cases wrap with
        | true => exact field htr (field htr h (t := .named .wGroup) (by simp [fieldsOf])) (by simp [fieldsOf])
        | false => exact field htr h (by simp [fieldsOf])
      exact stream_not htr (field htr hf (by simp [fieldsOf]))
    case inr.inr.inr.inr.inr.inl => exact hsp (field htr h (by simp [fieldsOf]))
    all_goals exact hm _ (by simp [fieldsOf]) h
  exact ⟨key _ (.inl rfl), key _ (.inr rfl)⟩

/-- **C92**, the types without content can be sent and shared. -/
theorem C92_plain (wrap newRc : Bool) (foreign : Trait → CompilerType → Prop) {n : TypeName}
    (hn : n ∈ [.delimiter, .spacing, .lineColumn]) (tr : Trait) : Impl (crateEnv wrap foreign newRc) tr (.named n) := by
  refine ⟨fun _ t => t = .plain ∨ t = .named n, ?_, .inr rfl⟩
  rintro tr t (rfl | rfl)
  · trivial
  · simp only [List.mem_cons, List.not_mem_nil, or_false] at hn
    rcases hn with rfl | rfl | rfl <;> cases tr <;> intro t ht <;> simp_all [fieldsOf]

/-- The pairs that justify each other in `C92_unwind`. -/
def unwindPairs (wrap : Bool) (tr : Trait) (t : T) : Prop :=
  (tr = .unwindSafe ∨ tr = .refUnwindSafe) ∧
    match t with
    | .plain => True
    | .vec (.named .tokenTree) | .vecIntoIter (.named .tokenTree) => True
    | .named n => wrap = true ∨
        n ∉ [TypeName.wTokenStream, .deferred, .wLexError, .wIter, .wSpan, .wGroup, .wIdent, .wLiteral]
    | .vec (.foreign _) | .foreign _ => wrap = true
    | .rc (.vec (.named .tokenTree)) => tr = .unwindSafe
    | _ => False

theorem unwindPairs_step {wrap newRc : Bool} {foreign : Trait → CompilerType → Prop}
    (hf : wrap = true → ∀ k, foreign .unwindSafe k ∧ foreign .refUnwindSafe k) (tr : Trait) (t : T)
    (h : unwindPairs wrap tr t) : Step (crateEnv wrap foreign newRc) (unwindPairs wrap) tr t := by
  obtain ⟨htr, h⟩ := h
  split at h
  · trivial
  · rcases htr with rfl | rfl <;> exact ⟨⟨.inl rfl, .inr (by decide)⟩, ⟨.inr rfl, .inr (by decide)⟩⟩
  · rcases htr with rfl | rfl <;> exact ⟨⟨.inl rfl, .inr (by decide)⟩, ⟨.inr rfl, .inr (by decide)⟩⟩
  · rename_i n
    rcases htr with rfl | rfl <;> cases wrap <;> cases n <;>
      simp_all [Step, crateEnv, sourceOf, fieldsOf, unwindPairs]
  · rcases htr with rfl | rfl <;> exact ⟨⟨.inl rfl, h⟩, ⟨.inr rfl, h⟩⟩
  · rcases htr with rfl | rfl
    · exact (hf h _).1
    · exact (hf h _).2
  · subst h; exact ⟨.inr rfl, trivial⟩
  · exact h.elim

/-- **C92**, all public types can cross `catch_unwind`, by value and by reference, if the compiler's types can. -/
theorem C92_unwind (wrap newRc : Bool) {foreign : Trait → CompilerType → Prop}
    (hf : wrap = true → ∀ k, foreign .unwindSafe k ∧ foreign .refUnwindSafe k) {n : TypeName}
    (hn : n ∈ [.tokenStream, .lexError, .span, .tokenTree, .group, .punct, .ident, .literal, .intoIter, .delimSpan,
      .delimiter, .spacing, .lineColumn]) :
    Impl (crateEnv wrap foreign newRc) .unwindSafe (.named n) ∧
    Impl (crateEnv wrap foreign newRc) .refUnwindSafe (.named n) := by
  have key : n ∉ [TypeName.wTokenStream, .deferred, .wLexError, .wIter, .wSpan, .wGroup, .wIdent, .wLiteral] := by
    revert n; decide
  exact ⟨⟨_, unwindPairs_step hf, .inl rfl, .inr key⟩, ⟨_, unwindPairs_step hf, .inr rfl, .inr key⟩⟩

end

/-! ### Examples -/

/-- The hypothesis of `C92_unwind` can be met. -/
example : ∀ k : CompilerType, (fun _ _ => True : Trait → CompilerType → Prop) .unwindSafe k ∧
    (fun _ _ => True : Trait → CompilerType → Prop) .refUnwindSafe k := fun _ => ⟨trivial, trivial⟩

/-- Without the marker a span of the fallback could be sent to another thread. -/
example (wrap newRc : Bool) (foreign : Trait → CompilerType → Prop) :
    Impl (crateEnv wrap foreign newRc) .send (.named .fSpan) := by
  refine ⟨fun _ t => t = .plain ∨ t = .named .fSpan, ?_, .inr rfl⟩
  rintro tr t (rfl | rfl)
  · trivial
  · cases tr <;> intro t ht <;> simp_all [fieldsOf]

/-- Before Rust 1.58, `Rc` is not `RefUnwindSafe`; the `impl` of src/rcvec.rs:146 is what makes streams so. -/
example (foreign : Trait → CompilerType → Prop) :
    ¬ Impl (crateEnv false foreign false) .refUnwindSafe (.rc .plain) :=
  fun h => Bool.noConfusion (Impl.step h).1

end PM2.Props
