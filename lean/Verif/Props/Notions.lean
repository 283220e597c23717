import Verif.Proofs.Hex
import Verif.Spec.Static
import Verif.Model.Parse
/-
The few notions that the specifications share with the model are what their names say.  Each is stated here against plain data or against
Lean's own library, so that a mistake in one of them cannot go unnoticed by moving model and specification together.
-/
namespace SV

theorem char_eq_iff {c d : Char} : c = d ↔ c.toNat = d.toNat := by
  constructor
  · rintro rfl; rfl
  · intro h; exact Char.toNat_inj.1 h

/-- The digits of number literals are the ten ASCII digits, with the values they are expected to have. -/
theorem C12_digits (c : Char) :
    isDigit c = true ↔ ∃ n, ['0', '1', '2', '3', '4', '5', '6', '7', '8', '9'][n]? = some c ∧ c.toNat - 48 = n := by
  constructor
  · intro h
    simp only [isDigit, Bool.and_eq_true, decide_eq_true_eq] at h
    obtain ⟨h1, h2⟩ := h
    change 48 ≤ c.toNat at h1
    change c.toNat ≤ 57 at h2
    refine ⟨c.toNat - 48, ?_, rfl⟩
    obtain ⟨n, hn⟩ : ∃ n, c.toNat = n := ⟨_, rfl⟩
    rw [hn] at h1 h2 ⊢
    have : n = 48 ∨ n = 49 ∨ n = 50 ∨ n = 51 ∨ n = 52 ∨ n = 53 ∨ n = 54 ∨ n = 55 ∨ n = 56 ∨ n = 57 := by omega
    rcases this with rfl | rfl | rfl | rfl | rfl | rfl | rfl | rfl | rfl | rfl <;>
      exact congrArg some (char_eq_iff.2 hn.symm)
  · rintro ⟨n, h, -⟩
    have hm := List.mem_of_getElem? h
    simp only [List.mem_cons, List.not_mem_nil, or_false] at hm
    rcases hm with rfl | rfl | rfl | rfl | rfl | rfl | rfl | rfl | rfl | rfl <;> decide

/-- What ends a run of hexadecimal digits is anything but an ASCII digit or letter. -/
theorem C21_alphanumeric (c : Char) :
    isAsciiAlnum c = true ↔ ('0' ≤ c ∧ c ≤ '9') ∨ ('a' ≤ c ∧ c ≤ 'z') ∨ ('A' ≤ c ∧ c ≤ 'Z') := by
  simp only [isAsciiAlnum, isAsciiLetter, isDigit, Bool.or_eq_true, Bool.and_eq_true, decide_eq_true_eq, Char.le_def, UInt32.le_iff_toNat_le]
  change ((97 ≤ c.toNat ∧ c.toNat ≤ 122 ∨ 65 ≤ c.toNat ∧ c.toNat ≤ 90) ∨ 48 ≤ c.toNat ∧ c.toNat ≤ 57) ↔
    (48 ≤ c.toNat ∧ c.toNat ≤ 57) ∨ (97 ≤ c.toNat ∧ c.toNat ≤ 122) ∨ 65 ≤ c.toNat ∧ c.toNat ≤ 90
  omega

/-- On ASCII characters, whatever the Unicode tables are: whitespace, letters, digits. -/
theorem C20_ascii_classes (u : Uni) (c : Char) (h : c.toNat < 128) :
    (u.ws c = true ↔ c ∈ [' ', '\t', '\n', Char.ofNat 11, Char.ofNat 12, '\r']) ∧
    (u.alpha c = true ↔ ('a' ≤ c ∧ c ≤ 'z') ∨ ('A' ≤ c ∧ c ≤ 'Z')) ∧
    (u.alnum c = true ↔ ('0' ≤ c ∧ c ≤ '9') ∨ ('a' ≤ c ∧ c ≤ 'z') ∨ ('A' ≤ c ∧ c ≤ 'Z')) := by
  refine ⟨?_, ?_, ?_⟩
  · rw [u.ws_ascii c h]
    simp only [isAsciiWs, List.mem_cons, List.not_mem_nil, or_false, char_eq_iff, Bool.or_eq_true, Bool.and_eq_true, decide_eq_true_eq, beq_iff_eq]
    change (9 ≤ c.toNat ∧ c.toNat ≤ 13 ∨ c.toNat = 32) ↔
      c.toNat = 32 ∨ c.toNat = 9 ∨ c.toNat = 10 ∨ c.toNat = 11 ∨ c.toNat = 12 ∨ c.toNat = 13
    omega
  · rw [u.alpha_ascii c h]
    simp only [isAsciiLetter, Bool.or_eq_true, Bool.and_eq_true, decide_eq_true_eq, Char.le_def, UInt32.le_iff_toNat_le]
    rfl
  · rw [← C21_alphanumeric, Uni.alnum, u.alpha_ascii c h, u.numeric_ascii c h]
    rfl

/-- Offsets into a text count the bytes of its UTF-8 encoding. -/
theorem C10_offsets_are_bytes (s : Str) :
    utf8Len s = (String.ofList s).utf8ByteSize ∧ (utf8Bytes s).length = utf8Len s := by
  refine ⟨?_, utf8Bytes_length s⟩
  induction s with
  | nil => rfl
  | cons c s ih => rw [utf8Len_cons, ih]; simp

/-- The bytes of a text are its UTF-8 encoding, as Lean's own strings have it. -/
theorem C23_utf8_bytes (s : Str) : utf8Bytes s = (String.ofList s).toByteArray.data.toList := by
  simp [utf8Bytes, List.utf8Encode]

/-- The locations of parse errors: a point, a range, and a range of one byte. -/
theorem parseError_marks (k : ParseErrorKind) (a b : Nat) :
    (k.at a).startLoc = a ∧ (k.at a).endLoc = none ∧ (k.between a b).startLoc = a ∧ (k.between a b).endLoc = some b ∧
    (k.atOne a).startLoc = a ∧ (k.atOne a).endLoc = some (a + 1) ∧ (k.at a).err = k ∧ (k.between a b).err = k ∧ (k.atOne a).err = k :=
  ⟨rfl, rfl, rfl, rfl, rfl, rfl, rfl, rfl, rfl⟩

/-- Sizes at work: `é` has two bytes, so an error after it is at offset 2; a store word of 32 bits has four bytes. -/
example : utf8Len ['é'] = 2 ∧ utf8Bytes ['é'] = [0xC3, 0xA9] ∧ wordBytes .u32 = 4 ∧ leNum [1, 2] = 513 := by decide

end SV
