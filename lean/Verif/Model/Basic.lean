/-
Basic data used throughout the model: Rust strings, fixed width integers.
-/
namespace SV

/-- Rust `String` / `&str`: a sequence of Unicode scalar values.  Rust's `char` is precisely a
Unicode scalar value, as is Lean's `Char`. The UTF-8 bytes are recovered with `utf8Len`. (value_type.rs:342, 394, from_string.rs:60) -/
abbrev Str := List Char

/-- Number of UTF-8 bytes of a string (`str::len`). (from_string.rs:239) -/
def utf8Len : Str → Nat
  | [] => 0
  | c :: cs => c.utf8Size + utf8Len cs

/-- Rust's `u128`. (value_type.rs:396) -/
structure U128 where
  val : Nat
  lt : val < 2 ^ 128
  deriving DecidableEq

/-- Rust's `i128`. (value_type.rs:398) -/
structure I128 where
  val : Int
  ge : -(2 ^ 127) ≤ val
  lt : val < 2 ^ 127
  deriving DecidableEq

/-- Rust's `[u8; 32]`. (value_type.rs:400, 402) -/
structure Bytes32 where
  bytes : List UInt8
  len : bytes.length = 32
  deriving DecidableEq

theorem U128.ext' {a b : U128} (h : a.val = b.val) : a = b := by
  cases a; cases b; cases h; rfl

theorem I128.ext' {a b : I128} (h : a.val = b.val) : a = b := by
  cases a; cases b; cases h; rfl

/-- Checked conversion of a natural number to `u128`. (from_string.rs:467, decode.rs:209-230) -/
def U128.ofNat? (n : Nat) : Option U128 :=
  if h : n < 2 ^ 128 then some ⟨n, h⟩ else none

/-- Checked conversion of an integer to `i128`. (from_string.rs:472, decode.rs:254-275) -/
def I128.ofInt? (n : Int) : Option I128 :=
  if h : -(2 ^ 127) ≤ n ∧ n < 2 ^ 127 then some ⟨n, h.1, h.2⟩ else none

/-- `u8 as u128`. (value_type.rs:105, custom_parsers/hex.rs:72) -/
def U128.ofU8 (b : UInt8) : U128 := ⟨b.toNat, by have := b.toNat_lt; omega⟩

@[simp] theorem U128.ofU8_val (b : UInt8) : (U128.ofU8 b).val = b.toNat := rfl

theorem U128.ofNat?_eq_some {n : Nat} {u : U128} : U128.ofNat? n = some u ↔ u.val = n := by
  unfold U128.ofNat?
  split
  · constructor
    · intro h; cases h; rfl
    · intro h; subst h; rfl
  · constructor
    · intro h; cases h
    · intro h; exact absurd (h ▸ u.lt) ‹_›

theorem I128.ofInt?_eq_some {n : Int} {u : I128} : I128.ofInt? n = some u ↔ u.val = n := by
  unfold I128.ofInt?
  split
  · constructor
    · intro h; cases h; rfl
    · intro h; subst h; rfl
  · constructor
    · intro h; cases h
    · intro h; subst h; rename_i hn; exact absurd ⟨u.ge, u.lt⟩ hn

@[simp] theorem utf8Len_nil : utf8Len [] = 0 := rfl
@[simp] theorem utf8Len_cons (c : Char) (cs : Str) : utf8Len (c :: cs) = c.utf8Size + utf8Len cs := rfl

@[simp] theorem utf8Len_append (a b : Str) : utf8Len (a ++ b) = utf8Len a + utf8Len b := by
  induction a with
  | nil => simp
  | cons c cs ih => simp [ih]; omega

theorem utf8Size_pos (c : Char) : 0 < c.utf8Size := Char.utf8Size_pos c

theorem length_le_utf8Len (s : Str) : s.length ≤ utf8Len s := by
  induction s with
  | nil => simp
  | cons c cs ih => have := utf8Size_pos c; simp; omega

end SV
