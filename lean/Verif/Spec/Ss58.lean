import Verif.Model.Ss58
import Verif.Spec.Grammar
import Verif.Spec.Hex
/-
SS58 addresses.
-/
namespace SV

/-- `a` is the SS58 address of `bytes`: in base 58 it is a network prefix of one byte up to 63, or of two
bytes beginning with 64 to 127, and the bytes, and a checksum of two bytes which are the first bytes of the hash of
`SS58PRE`, the prefix and the bytes. -/
def Ss58Address (lib : Ss58Lib) (a : Str) (bytes : List UInt8) : Prop :=
  ∃ pre c0 c1 tail, lib.fromBase58 a = some (pre ++ bytes ++ [c0, c1]) ∧
    ((∃ x, pre = [x] ∧ x.toNat ≤ 63) ∨ ∃ x y, pre = [x, y] ∧ 64 ≤ x.toNat ∧ x.toNat ≤ 127) ∧
    lib.blake2b512 ("SS58PRE".toUTF8.toList ++ (pre ++ bytes)) = c0 :: c1 :: tail

/-- The texts that are left to other notations: booleans and numbers. -/
def Ss58Reserved (a : Str) : Prop := a = "true".toList ∨ a = "false".toList ∨ ∀ c ∈ a, isDigit c = true

/-- The text begins, after whitespace, with an opening bracket. -/
def OpensComposite (u : Uni) (rest : Str) : Prop := ∃ w c r, rest = w ++ c :: r ∧ Ws u w ∧ (c = '(' ∨ c = '{')

end SV
