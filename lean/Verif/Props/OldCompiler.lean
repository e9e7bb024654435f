import Verif.Model.Unwrapped
import Verif.Props.Values
import Verif.Props.Direct
import Verif.Props.Moves
import Verif.Spec.Decide
/-! # C82, C83: compilers without some functions, and no wrapper at all -/

namespace PM2.Props
open Wrap Spec Spec.Direct

section
variable [Compiler] [UnicodeTables] [LawfulUnicode]

/-! ## C82: literals that the compiler has no constructor for -/

/-- The compiler's `Literal::from_str` accepts what the fallback's accepts as one literal token, and keeps the
text. -/
def ParsesLiterals : Prop :=
  ∀ text, Room [] text → (∃ span, (TokenStream.fromStr SourceMap.init text).2 = .ok [.literal text span]) →
    ∃ l, Compiler.parseLiteral text = .ok l ∧ Compiler.literalText l = text

theorem ParsesLiterals.alone (hp : ParsesLiterals) {x : List Char} (hx : LexesAlone x) (hr : Room [] x) :
    ∃ l, literalUnchecked true x = .ok (.literalC l) ∧ Compiler.literalText l = x := by
  obtain ⟨l, h1, h2⟩ := hp x hr (hx .init hr).2
  exact ⟨l, by simp only [literalUnchecked, h1, if_true], h2⟩

variable {σ : Type} [Rep σ]

omit [Compiler] [UnicodeTables] [LawfulUnicode] in
theorem room_byteCharacter : ∀ b : UInt8, Room [] (litByteCharacter b) := by
  have : ∀ n : Fin 256, Room [] (litByteCharacter (UInt8.ofNat n)) := by decide +kernel
  intro b
  have := this ⟨b.toNat, b.toNat_lt⟩
  simpa using this

/-- **C82.** Under a compiler without `Literal::byte_character`, the call inside a macro does not panic, and gives
a literal of the compiler that stands for the byte. -/
theorem C82_byte_character (hc : Compiler.cfgByteCharacter = false) (hp : ParsesLiterals) (s : State σ) (b : UInt8) :
    ∃ l e, Wrap.step true s (.byteCharacter b) = .ok (s.push (.tree (.literalC l))) ∧
      Compiler.literalText l = 'b' :: '\'' :: e ++ ['\''] ∧ unescapeByte e = .ok b := by
  obtain ⟨h1, e, h2, h3⟩ := C22_byte_character b
  obtain ⟨l, h4, h5⟩ := hp.alone h1 (room_byteCharacter b)
  refine ⟨l, e, ?_, h5.trans h2, h3⟩
  simp only [Wrap.step, byteCharacterW, hc, h4, out_bind_ok, if_true, Bool.false_eq_true, if_false]

/-- **C82.** Under a compiler without `Literal::c_string`, the call inside a macro does not panic, and gives a
literal of the compiler whose value is the string with the terminating NUL. -/
theorem C82_c_string (hc : Compiler.cfgCString = false) (hp : ParsesLiterals) (s : State σ) {bs : List UInt8}
    (hz : (0 : UInt8) ∉ bs) (hr : ∀ x, litCString bs = .ok x → Room [] x) :
    ∃ l, Wrap.step true s (.cString bs) = .ok (s.push (.tree (.literalC l))) ∧
      cstrValue (Compiler.literalText l) = .ok (bs ++ [0]) := by
  obtain ⟨x, h1, h2, h3⟩ := C20_c_string bs hz
  obtain ⟨l, h4, h5⟩ := hp.alone h2 (hr x h1)
  refine ⟨l, ?_, by rw [h5, h3]⟩
  simp only [Wrap.step, cStringW, hc, h1, Out.ofRes, h4, out_bind_ok, if_true, Bool.false_eq_true, if_false]

/-! ## C27: the values of literals of the compiler -/

theorem literalValue_total (repr : List Char) (k : ValueKind) : ∃ r, literalValue repr k = .ok r := by
  obtain ⟨h1, h2, h3⟩ := C27_total repr
  cases k <;> simp only [literalValue]
  · rcases h1 with ⟨v, h⟩ | ⟨e, h, -⟩ | h <;> rw [h] <;> exact ⟨_, rfl⟩
  · rcases h3 with ⟨v, h⟩ | ⟨e, h, -⟩ | h <;> rw [h] <;> exact ⟨_, rfl⟩
  · rcases h2 with ⟨v, h⟩ | ⟨e, h, -⟩ | h <;> rw [h] <;> exact ⟨_, rfl⟩

/-- **C27** in either mode: the accessors of a literal never panic, whatever text the compiler prints for it. -/
theorem C27_either_mode (m : Bool) (s : State σ) {i : Nat} {t : Tree} (hi : s.vars[i]? = some (.tree t))
    (ht : (∃ l, t = .literalC l) ∨ ∃ r sp, t = .literalF r sp) (k : ValueKind) :
    ∃ r, Wrap.step m s (.value k i) = .ok (s.push (.conversion r)) := by
  rcases ht with ⟨l, rfl⟩ | ⟨x, sp, rfl⟩
  · obtain ⟨r, hr⟩ := literalValue_total (Compiler.literalText l) k
    exact ⟨r, by simp only [Wrap.step, State.tree, hi, out_bind_ok, Tree.literalText, Out.typed, hr, Out.ofRes]⟩
  · obtain ⟨r, hr⟩ := literalValue_total x k
    exact ⟨r, by simp only [Wrap.step, State.tree, hi, out_bind_ok, Tree.literalText, Out.typed, hr, Out.ofRes]⟩

/-! ## C83: no wrapper -/

omit [LawfulUnicode] in
theorem ofCompilerStream_ok {sm : SourceMap} {cs : List CTree} {ts : TokenStream}
    (h : (TokenStream.fromStr sm (Compiler.streamText cs)).2 = .ok ts) : (ofCompilerStream sm cs).2 = .ok ts := by
  unfold ofCompilerStream fromStrUnchecked
  split <;> rename_i e <;> rw [e] at h <;> simp_all

/-- **C83.** A stream of the compiler is turned into one of the fallback whenever its text lexes; otherwise the
conversion panics, and it always ends. The position space is used as by parsing the text. -/
theorem C83_from_compiler {sm : SourceMap} {texts : List (List Char)} (h : History sm texts) {cs : List CTree}
    (hr : Room texts (Compiler.streamText cs)) :
    History (ofCompilerStream sm cs).1 (texts ++ [Compiler.streamText cs]) ∧
    ((∃ ts, (ofCompilerStream sm cs).2 = .ok ts ∧
        (TokenStream.fromStr sm (Compiler.streamText cs)).2 = .ok ts) ∨
      ((ofCompilerStream sm cs).2 = .panic ∧
        ∃ e, (TokenStream.fromStr sm (Compiler.streamText cs)).2 = .err e)) := by
  have h1 : (ofCompilerStream sm cs).1 = (TokenStream.fromStr sm (Compiler.streamText cs)).1 := by
    unfold ofCompilerStream fromStrUnchecked
    split <;> rename_i e <;> rw [e]
  refine ⟨?_, ?_⟩
  · have h2 := History.parse (Compiler.streamText cs) h (by unfold Room at hr; omega)
    rwa [if_pos hr, ← h1] at h2
  · rcases C01_parse_total h hr with ⟨ts, h2⟩ | ⟨e, h2⟩
    · exact .inl ⟨ts, ofCompilerStream_ok h2, h2⟩
    · refine .inr ⟨?_, e, h2⟩
      unfold ofCompilerStream fromStrUnchecked
      split <;> rename_i e <;> rw [e] at h2 <;> simp_all

/-- The compiler's parser accepts what the fallback's does, and the streams are alike. -/
def ParsesAlike (Alike : List CTree → List TokenTree → Prop) : Prop :=
  ∀ text ts, Room [] text → (TokenStream.fromStr SourceMap.init text).2 = .ok ts →
    ∃ cs, Compiler.parseStream text = .ok cs ∧ Alike cs (erase ts)

/-- What the compiler prints for a stream lexes as the tokens that the stream is like. -/
def PrintsAlike (Alike : List CTree → List TokenTree → Prop) : Prop :=
  ∀ cs ts, Alike cs (erase ts) → ∀ {sm : SourceMap} {texts : List (List Char)}, History sm texts →
    Room texts (Compiler.streamText cs) →
    ∃ ts', (TokenStream.fromStr sm (Compiler.streamText cs)).2 = .ok ts' ∧ erase ts' = erase ts

/-- **C83.** Handing a stream to the compiler does not panic, if it could have been parsed at all. -/
theorem C83_into_compiler {Alike : List CTree → List TokenTree → Prop} (hp : ParsesAlike Alike)
    {ts : List TokenTree} (hw : WF ts) (hr : Room [] (display ts)) :
    ∃ cs, intoCompilerStream ts = .ok cs ∧ Alike cs (erase ts) := by
  obtain ⟨ts', h1, h2⟩ := C03_lossless hw .init hr
  obtain ⟨cs, h3, h4⟩ := hp _ _ hr h1
  exact ⟨cs, by rw [intoCompilerStream, h3], h2 ▸ h4⟩

/-- **C83.** There and back: the tokens are the same, modulo spans. -/
theorem C83_there_and_back {Alike : List CTree → List TokenTree → Prop} (hp : ParsesAlike Alike)
    (hq : PrintsAlike Alike) {ts : List TokenTree} (hw : WF ts) (hr : Room [] (display ts))
    {sm : SourceMap} {texts : List (List Char)} (h : History sm texts) :
    ∃ cs, intoCompilerStream ts = .ok cs ∧ (Room texts (Compiler.streamText cs) →
      ∃ ts', (ofCompilerStream sm cs).2 = .ok ts' ∧ erase ts' = erase ts) := by
  obtain ⟨cs, h1, h2⟩ := C83_into_compiler hp hw hr
  refine ⟨cs, h1, fun hr' => ?_⟩
  obtain ⟨ts', h3, h4⟩ := hq cs ts h2 h hr'
  exact ⟨ts', ofCompilerStream_ok h3, h4⟩

/-- **C83.** Back and there: a macro that returns its input unchanged returns a stream like the one it was given. -/
theorem C83_back_and_there {Alike : List CTree → List TokenTree → Prop} (hp : ParsesAlike Alike)
    {cs : List CTree} {sm : SourceMap} {texts : List (List Char)} (h : History sm texts)
    (hr : Room texts (Compiler.streamText cs)) {ts : TokenStream} (ho : (ofCompilerStream sm cs).2 = .ok ts)
    (hr' : Room [] (display ts)) : ∃ cs', intoCompilerStream ts = .ok cs' ∧ Alike cs' (erase ts) := by
  rcases (C83_from_compiler h hr).2 with ⟨ts', h1, h2⟩ | ⟨h1, -⟩ <;> rw [h1] at ho <;> cases ho
  obtain ⟨ts', h3, h4⟩ := C04_fixed_point h .init hr h2 hr'
  obtain ⟨cs', h5, h6⟩ := hp _ _ hr' h3
  exact ⟨cs', by rw [intoCompilerStream, h5], h4 ▸ h6⟩

end

/-! ## Concrete cases -/

section examples
attribute [local instance] sampleTypes sampleTables sampleTables_lawful

/-- A compiler whose tokens are texts: it has none of the newer functions, accepts every literal, and
parses a text to one token that prints as the text. -/
@[reducible] private def older : Compiler :=
  { sampleCompiler with
    cfgByteCharacter := false
    cfgCString := false
    parseLiteral := fun t => .ok (t, (9 : Nat))
    parseStream := fun t => .ok [.literal (t, (9 : Nat))]
    streamText := fun ts => ts.flatMap Spec.sampleText }

attribute [local instance] older

private theorem older_literals : ParsesLiterals := fun text _ _ => ⟨(text, (9 : Nat)), rfl, rfl⟩

/-- C27: a literal of the compiler, the text of which is only a quote -/
example : ∃ r, Wrap.step true (⟨SourceMap.init, [.tree (.literalC ((['"'], (9 : Nat)) : List Char × Nat))]⟩ : State Deferred)
    (.value .str 0) = .ok (State.push ⟨SourceMap.init, [.tree (.literalC ((['"'], (9 : Nat)) : List Char × Nat))]⟩ (.conversion r)) :=
  C27_either_mode true _ rfl (.inl ⟨_, rfl⟩) .str

/-- C82 -/
example : ∃ l e, Wrap.step true (State.init : State Deferred) (.byteCharacter 39) =
      .ok (State.init.push (.tree (.literalC l))) ∧
    Compiler.literalText l = 'b' :: '\'' :: e ++ ['\''] ∧ unescapeByte e = .ok 39 :=
  C82_byte_character rfl older_literals _ 39

/-- C82: `é`, a byte that is not UTF-8, and `"` -/
example : ∃ l, Wrap.step true (State.init : State Deferred) (.cString [195, 169, 255, 34]) =
      .ok (State.init.push (.tree (.literalC l))) ∧
    cstrValue (Compiler.literalText l) = .ok [195, 169, 255, 34, 0] :=
  C82_c_string rfl older_literals _ (by decide) (fun x hx => by
    have : litCString [195, 169, 255, 34] = .ok "c\"é\\xFF\\\"\"".toList := by decide +kernel
    rw [this] at hx; cases hx; decide)

private def Same (cs : List CTree) (ts : List TokenTree) : Prop :=
  ∀ {sm : SourceMap} {texts : List (List Char)}, History sm texts → Room texts (Compiler.streamText cs) →
    ∃ ts', (TokenStream.fromStr sm (Compiler.streamText cs)).2 = .ok ts' ∧ erase ts' = ts

private theorem older_parses : ParsesAlike Same := fun text ts hr h =>
  ⟨[.literal (text, (9 : Nat))], rfl, fun h' hr' => by
    have e : Compiler.streamText [CTree.literal (text, (9 : Nat))] = text := List.append_nil _
    rw [e] at hr' ⊢
    exact (C16_same .init hr h' hr').1 ts h⟩

private theorem older_prints : PrintsAlike Same := fun _ _ h => h

/-- C83: a stream with nested groups is handed to the compiler and back. -/
example : ∃ cs, intoCompilerStream sampleStream = .ok cs ∧ (Room [] (Compiler.streamText cs) →
    ∃ ts', (ofCompilerStream SourceMap.init cs).2 = .ok ts' ∧ erase ts' = erase sampleStream) :=
  C83_there_and_back older_parses older_prints sampleStream_wf (by decide +kernel) .init

end examples
end PM2.Props
