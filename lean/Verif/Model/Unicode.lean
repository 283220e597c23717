import Verif.Model.Basic
/-
The Unicode character classes used by the code, as a parameter.
-/
namespace SV

/-- `char::is_ascii_digit`. (from_string.rs:440) -/
def isDigit (c : Char) : Bool := '0'.toNat ≤ c.toNat && c.toNat ≤ '9'.toNat

/-- ASCII letters. (the ASCII part of `char::is_alphabetic`, from_string.rs:577) -/
def isAsciiLetter (c : Char) : Bool :=
  ('a'.toNat ≤ c.toNat && c.toNat ≤ 'z'.toNat) || ('A'.toNat ≤ c.toNat && c.toNat ≤ 'Z'.toNat)

/-- `char::is_ascii_alphanumeric`. (ss58.rs:36) -/
def isAsciiAlnum (c : Char) : Bool := isAsciiLetter c || isDigit c

/-- ASCII whitespace as `char::is_whitespace` has it: U+0009 to U+000D, and space. (from_string.rs:589) -/
def isAsciiWs (c : Char) : Bool := (9 ≤ c.toNat && c.toNat ≤ 13) || c.toNat == 32

/-- The Unicode tables behind `char::is_whitespace`, `char::is_alphabetic`, `char::is_numeric`
(Rust core, not in /repo). Only the listed laws are assumed of them: their values on ASCII, and that no
whitespace character is alphabetic or numeric. All of these hold of the Unicode tables. (from_string.rs:577, 580, 589, to_string.rs:565, 571, ss58.rs:56) -/
structure Uni where
  /-- `char::is_whitespace` -/
  ws : Char → Bool
  /-- `char::is_alphabetic` -/
  alpha : Char → Bool
  /-- `char::is_numeric` -/
  numeric : Char → Bool
  ws_ascii : ∀ c : Char, c.toNat < 128 → ws c = isAsciiWs c
  alpha_ascii : ∀ c : Char, c.toNat < 128 → alpha c = isAsciiLetter c
  numeric_ascii : ∀ c : Char, c.toNat < 128 → numeric c = isDigit c
  ws_alpha : ∀ c, ws c = true → alpha c = false
  ws_numeric : ∀ c, ws c = true → numeric c = false

/-- `char::is_alphanumeric`, which Rust defines as `self.is_alphabetic() || self.is_numeric()`. (from_string.rs:580, to_string.rs:571) -/
def Uni.alnum (u : Uni) (c : Char) : Bool := u.alpha c || u.numeric c

/-- The laws are satisfiable: the ASCII-only tables. (for from_string.rs:577, 580, 589) -/
def Uni.ascii : Uni where
  ws := isAsciiWs
  alpha := isAsciiLetter
  numeric := isDigit
  ws_ascii _ _ := rfl
  alpha_ascii _ _ := rfl
  numeric_ascii _ _ := rfl
  ws_alpha c h := by
    simp [isAsciiWs, isAsciiLetter] at h ⊢
    omega
  ws_numeric c h := by
    simp [isAsciiWs, isDigit] at h ⊢
    omega

end SV
