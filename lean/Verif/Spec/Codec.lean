import Verif.Model.Codec
/-
Specification of the SCALE wire primitives (from the SCALE specification): what bytes stand for a number or a bit sequence.
Nothing but the data types (`BitStore`, `BitOrder`) is shared with the model.
-/
namespace SV

/-- The number whose base 256 digits, the least significant first, are `bs`: the sum of `bs[i] * 256 ^ i`. -/
def leNum (bs : List UInt8) : Nat := (bs.mapIdx (fun i b => b.toNat * 256 ^ i)).sum

/-- The size of a store word, in bytes. -/
def wordBytes (s : BitStore) : Nat :=
  (match s with
    | .u8 => 8
    | .u16 => 16
    | .u32 => 32
    | .u64 => 64) / 8

/-- `bs` is the fixed width little endian encoding of the natural number `n` in `k` bytes. -/
def IsLe (k n : Nat) (bs : List UInt8) : Prop := bs.length = k ∧ leNum bs = n

/-- `bs` is the two's complement little endian encoding of the integer `n` in `k` bytes. -/
def IsLeInt (k : Nat) (n : Int) (bs : List UInt8) : Prop :=
  bs.length = k ∧ -(256 ^ k : Nat) ≤ 2 * n ∧ 2 * n < (256 ^ k : Nat) ∧
    (leNum bs : Int) = if 0 ≤ n then n else n + (256 ^ k : Nat)

/-- `bs` is the compact encoding of `n`: one of the four modes, always the shortest that fits. -/
inductive IsCompact : Nat → List UInt8 → Prop
  | one {n bs} : n < 2 ^ 6 → IsLe 1 (4 * n) bs → IsCompact n bs
  | two {n bs} : 2 ^ 6 ≤ n → n < 2 ^ 14 → IsLe 2 (4 * n + 1) bs → IsCompact n bs
  | four {n bs} : 2 ^ 14 ≤ n → n < 2 ^ 30 → IsLe 4 (4 * n + 2) bs → IsCompact n bs
  | big {n k b bs} : 2 ^ 30 ≤ n → 4 ≤ k → (k = 4 ∨ 256 ^ (k - 1) ≤ n) → IsLe 1 (4 * (k - 4) + 3) [b] → IsLe k n bs →
      IsCompact n (b :: bs)

/-- In the store words `bs` of a bit sequence with words of `w` bits, the `i`th bit of the sequence: the words are in order, each
is little endian, and within a word the bits count from the least or from the most significant one. -/
def bitAt (o : BitOrder) (w : Nat) (bs : List UInt8) (i : Nat) : Bool :=
  (leNum bs).testBit (i / w * w + match o with
    | .lsb0 => i % w
    | .msb0 => w - 1 - i % w)

/-- `bs` are the store words of the bits `bits`. With `zeroPad` the unused bits of the last word are zero. -/
def IsBits (zeroPad : Prop) (s : BitStore) (o : BitOrder) (bits : List Bool) (bs : List UInt8) : Prop :=
  bs.length * 8 < bits.length + 8 * wordBytes s ∧ bits.length ≤ bs.length * 8 ∧ wordBytes s ∣ bs.length ∧
  (∀ i (h : i < bits.length), bitAt o (8 * wordBytes s) bs i = bits[i]) ∧
  (zeroPad → ∀ i, bits.length ≤ i → bitAt o (8 * wordBytes s) bs i = false)

end SV
