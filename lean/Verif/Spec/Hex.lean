import Verif.Model.Value
import Verif.Model.Unicode
/-
Hexadecimal notation.
-/
namespace SV

/-- The hexadecimal digits, in upper case. -/
def upperDigits : Str := ['0', '1', '2', '3', '4', '5', '6', '7', '8', '9', 'A', 'B', 'C', 'D', 'E', 'F']
/-- The hexadecimal digits, in lower case. -/
def lowerDigits : Str := ['0', '1', '2', '3', '4', '5', '6', '7', '8', '9', 'a', 'b', 'c', 'd', 'e', 'f']

/-- `c` is a hexadecimal digit, in any case, with value `n`. -/
def HexDigit (c : Char) (n : Nat) : Prop := upperDigits[n]? = some c ∨ lowerDigits[n]? = some c

/-- `t` writes each of the bytes with two hexadecimal digits, the high one first. -/
inductive HexText : List UInt8 → Str → Prop
  | nil : HexText [] []
  | cons {b bs hi lo t} (h1 : HexDigit hi (b.toNat / 16)) (h2 : HexDigit lo (b.toNat % 16)) (h : HexText bs t) :
      HexText (b :: bs) (hi :: lo :: t)

/-- The same with upper case digits only, as a function. -/
def upperHex : List UInt8 → Str
  | [] => []
  | b :: bs => upperDigits.getD (b.toNat / 16) '?' :: upperDigits.getD (b.toNat % 16) '?' :: upperHex bs

/-- The text does not begin with an ASCII letter or digit. -/
def NotAlnumCont : Str → Prop
  | [] => True
  | c :: _ => isAsciiAlnum c = false

/-- The value is an unnamed composite of the given bytes as `U128` primitives, with any contexts. -/
inductive IsBytes {T : Type} : List UInt8 → Value T → Prop
  | mk {bs vs c} (h : vs.map (fun v => v.value) = bs.map (fun b => .primitive (.u128 (.ofU8 b)))) :
      IsBytes bs (.mk (.composite (.unnamed vs)) c)

/-- The notation added by the hexadecimal parser: `0x` and an even number of digits. -/
def HexNotation (v : Value Unit) (s : Str) : Prop :=
  ∃ bs t, IsBytes bs v ∧ s = '0' :: 'x' :: t ∧ HexText bs t

end SV
