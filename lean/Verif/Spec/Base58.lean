import Verif.Spec.Ss58
import Verif.Spec.Scale
/-
Base 58, and the text of an SS58 address.
-/
namespace SV

/-- The number with the given digits, the most significant one first. -/
def numeral (base : Nat) (ds : List Nat) : Nat := ds.foldl (fun n d => base * n + d) 0

/-- How many zeros there are before the first digit that is not zero. -/
def leadingZeros (ds : List Nat) : Nat := (ds.takeWhile (fun d => d == 0)).length

/-- The digits of base 58, from 0 to 57: no `0`, `O`, `I`, `l`. -/
def alphabet58 : Str := "123456789ABCDEFGHJKLMNPQRSTUVWXYZabcdefghijkmnopqrstuvwxyz".toList

/-- `Base58 a bs`: the text `a` is the bytes in base 58: the digits of `a` are the same number as the bytes (which are digits of base 256), and there are as many zeros in
front of both. -/
def Base58 (a : Str) (bs : List UInt8) : Prop :=
  ∃ ds : List Nat, a.map (fun c => alphabet58.idxOf? c) = ds.map some ∧
    numeral 58 ds = numeral 256 (bs.map (fun b => b.toNat)) ∧ leadingZeros ds = leadingZeros (bs.map (fun b => b.toNat))

/-- What is assumed of the crate `base58`: what it decodes is right, and it decodes all texts of at most `limit` bytes. -/
structure DecodesBase58 (lib : Ss58Lib) (limit : Nat) : Prop where
  right : ∀ a bs, lib.fromBase58 a = some bs → Base58 a bs
  all : ∀ a bs, Base58 a bs → bs.length ≤ limit → lib.fromBase58 a = some bs

/-- A network prefix: one byte up to 63, or two bytes of which the first is from 64 to 127. -/
def IsNetwork (pre : List UInt8) : Prop := (∃ x, pre = [x] ∧ x.toNat ≤ 63) ∨ ∃ x y, pre = [x, y] ∧ 64 ≤ x.toNat ∧ x.toNat ≤ 127

/-- `AddressText hash pre account a`: `a` is the SS58 address of the account on the network: prefix, account and checksum in base 58. The checksum is the first two bytes of the
hash of `SS58PRE`, prefix and account. -/
def AddressText (hash : List UInt8 → List UInt8) (pre account : List UInt8) (a : Str) : Prop :=
  IsNetwork pre ∧ Base58 a (pre ++ account ++ (hash ("SS58PRE".toUTF8.toList ++ (pre ++ account))).take 2)

/-- SS58 addresses as a notation for the account's bytes. The library must be able to decode as many bytes as there are in the address, and texts like `true`, `false` and `123` are not in it. -/
def AddressNotation (lib : Ss58Lib) (limit : Nat) (v : Value Unit) (a : Str) : Prop :=
  ∃ pre account, v = .fromBytes account ∧ AddressText lib.blake2b512 pre account a ∧ pre.length + account.length + 2 ≤ limit ∧ ¬ Ss58Reserved a

/-- No variant in the value has a name that goes on with a character other than an ASCII letter or digit after an address. -/
def NoAddressNames (lib : Ss58Lib) (v : Value Unit) : Prop :=
  ∀ n c, Sub v (.variant n c) → ¬ ∃ a d r bs, n = a ++ d :: r ∧ (∀ c ∈ a, isAsciiAlnum c = true) ∧ isAsciiAlnum d = false ∧ Ss58Address lib a bs

/-- What may come after a text in which addresses are used. -/
def AddressFollow (u : Uni) (s rest : Str) : Prop := PlainFollow s rest ∧ NotAlnumCont rest ∧ ¬ OpensComposite u rest

end SV
