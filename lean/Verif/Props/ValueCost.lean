import Verif.Proof.ValueCost
import Verif.Props.Values
import Verif.Spec.Decide
/-! # C107: the values of literals are found in linear time, and are shorter than the literals -/

namespace PM2.Props
open Spec

/-- **C107**: `str_value` and the model that counts its steps agree, and the steps are linear in the bytes of the
literal. -/
theorem C107_str (x : List Char) :
    (T.strValue x).val = strValue x ∧ (T.strValue x).cost ≤ 4 * strLen x + 12 :=
  ⟨T.valueOf_val .., T.valueOf_cost ..⟩

/-- **C107**, `byte_str_value`. -/
theorem C107_byte_str (x : List Char) :
    (T.byteStrValue x).val = byteStrValue x ∧ (T.byteStrValue x).cost ≤ 4 * strLen x + 12 :=
  ⟨T.valueOf_val .., T.valueOf_cost ..⟩

/-- **C107**, `cstr_value`. -/
theorem C107_cstr (x : List Char) :
    (T.cstrValue x).val = cstrValue x ∧ (T.cstrValue x).cost ≤ 4 * strLen x + 12 :=
  ⟨T.valueOf_val .., T.valueOf_cost ..⟩

/-- **C107**, `check_for_errors`. -/
theorem C107_check {ε : Type} (s : List Char) (m : Mode) :
    (T.checkForErrors s m : Timed ε _).val = checkForErrors s m ∧
      (T.checkForErrors s m : Timed ε _).cost ≤ 3 * s.length + 2 :=
  ⟨T.checkForErrors_val s m, T.checkForErrors_cost s m⟩

private theorem piece_length {k : StrKind} {p : List Char} {m : List UInt8} (h : Piece k p m) : m.length ≤ strLen p := by
  cases h with
  | char => simp [String.length_utf8EncodeChar]
  | simple => simp only [strLen_cons, strLen_nil, List.length_cons, List.length_nil]; have := utf8Size_pos '\\'; omega
  | zero => decide
  | hex => simp only [strLen_cons, strLen_nil, List.length_cons, List.length_nil]; have := utf8Size_pos '\\'; omega
  | @uni ds v =>
    have h4 : v.utf8Size ≤ 4 := Char.utf8Size_le_four v
    have h1 : ('\\').utf8Size = 1 := rfl
    have h2 : ('u').utf8Size = 1 := rfl
    have h3 : ('{').utf8Size = 1 := rfl
    have h5 : ('}').utf8Size = 1 := rfl
    simp only [List.cons_append, strLen_cons, strLen_append, strLen_nil, String.length_utf8EncodeChar]
    omega

private theorem means_length {k : StrKind} {t : List Char} {m : List UInt8} (h : Means k t m) : m.length ≤ strLen t := by
  induction h with
  | nil => simp
  | piece hp _ ih =>
    have := piece_length hp
    rw [List.length_append, strLen_append]
    omega
  | cont _ _ _ ih =>
    simp only [List.cons_append, strLen_cons, strLen_append]
    omega

/-- **C107**: a literal is longer than its value, by the quotes at least, and the prefix. -/
theorem C107_shorter {k : StrKind} {x : List Char} {m : List UInt8} (h : HasValue k x m) :
    (kindPrefix k).length + m.length + 2 ≤ strLen x := by
  have hp : (kindPrefix k).length = strLen (kindPrefix k) := by cases k <;> rfl
  have hq : ('"').utf8Size = 1 := rfl
  cases h with
  | cooked hm =>
    have := means_length hm
    simp only [strLen_append, strLen_cons, strLen_nil]
    omega
  | @raw n v =>
    have : (bytesOf v).length = strLen v := bytesOf_length v
    simp only [strLen_append, strLen_cons, strLen_nil]
    omega

/-- **C107**: what the accessors return is shorter than the literal; `cstr_value` ends with a NUL. -/
theorem C107_size (x : List Char) :
    (∀ v, strValue x = .ok v → strLen v + 2 ≤ strLen x) ∧
    (∀ v, byteStrValue x = .ok v → v.length + 3 ≤ strLen x) ∧
    (∀ v, cstrValue x = .ok v → v.length + 2 ≤ strLen x) := by
  refine ⟨fun v h => ?_, fun v h => ?_, fun v h => ?_⟩
  · have h1 := C107_shorter ((C28_str x v).mp h)
    have h2 : (bytesOf v).length = strLen v := bytesOf_length v
    simp only [kindPrefix, List.length_nil] at h1
    omega
  · have h1 := C107_shorter ((C28_byte_str x v).mp h)
    simp only [kindPrefix, List.length_cons, List.length_nil] at h1
    omega
  · obtain ⟨m, h1, rfl⟩ := (C28_cstr x v).mp h
    have h2 := C107_shorter h1
    simp only [kindPrefix, List.length_cons, List.length_nil, List.length_append] at h2 ⊢
    omega

example : (T.strValue ['"', 'a', '\\', 'u', '{', '4', '1', '}', '"']).cost = 23 ∧
    strValue ['"', 'a', '\\', 'u', '{', '4', '1', '}', '"'] = .ok ['a', 'A'] ∧
    (T.cstrValue ['c', 'r', '#', '"', 'a', '"', '#']).cost = 21 ∧
    cstrValue ['c', 'r', '#', '"', 'a', '"', '#'] = .ok [97, 0] ∧
    (T.checkForErrors ['\\', 'q'] .byte : Timed Unit _).cost = 3 := by decide +kernel

end PM2.Props
