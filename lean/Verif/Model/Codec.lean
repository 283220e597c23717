import Verif.Model.Hex
/-
The wire primitives used when SCALE encoding and decoding values. None of this code is in /repo: it is the behaviour of the
dependencies `parity-scale-codec` 3 (fixed width integers, `Compact<T>`, `str`), `scale-bits` 0.7 (bit sequences) and of
Rust's core library (`from_utf8`), as used from /repo/src/scale_impls/*.rs. Every definition here is a *dependency model*.
-/
namespace SV

/-- The little endian bytes of `n` in `k` bytes (`uN::encode`, as used through encode.rs:346-361). -/
def leBytes : Nat → Nat → List UInt8
  | 0, _ => []
  | k + 1, n => UInt8.ofNat n :: leBytes k (n / 256)

/-- The number that some bytes stand for, read little endian (`uN::decode`, as used through decode.rs:40-45). -/
def leVal : List UInt8 → Nat
  | [] => 0
  | b :: bs => b.toNat + 256 * leVal bs

/-- Two's complement (`iN::encode`/`decode`, through decode.rs:249-283): the bytes of a number in `k` bytes. -/
def leBytesInt (k : Nat) (n : Int) : List UInt8 := leBytes k (n % (256 ^ k : Nat)).toNat

/-- Two's complement: the number that some bytes stand for. (decode.rs:249-283) -/
def leValInt (bs : List UInt8) : Int :=
  if 2 * leVal bs < 256 ^ bs.length then leVal bs else (leVal bs : Int) - (256 ^ bs.length : Nat)

/-- Read `k` bytes off the input; `none` is "Not enough data to fill buffer" (`codec::Input::read`, through
decode.rs:40-45). -/
def takeN (k : Nat) (bs : List UInt8) : Option (List UInt8 × List UInt8) :=
  if bs.length < k then none else some (bs.take k, bs.drop k)

/-- Number of bytes needed for `n` (`bytes_needed` in `Compact<u64>`/`Compact<u128>` `encode_to`, through
encode.rs:137). -/
def byteLen (n : Nat) : Nat := if n = 0 then 0 else Nat.log2 n / 8 + 1

/-- `Compact(n).encode()` (used in encode.rs:137 and by the number encoders behind encode.rs:346-361). -/
def compactEnc (n : Nat) : List UInt8 :=
  if n < 2 ^ 6 then leBytes 1 (4 * n)
  else if n < 2 ^ 14 then leBytes 2 (4 * n + 1)
  else if n < 2 ^ 30 then leBytes 4 (4 * n + 2)
  else UInt8.ofNat (4 * (byteLen n - 4) + 3) :: leBytes (byteLen n) n

/-- `Compact::<uN>::decode` with `N = bits` (behind decode.rs:40-45): the two low bits of the first byte are the mode; every
mode rejects numbers which a shorter encoding would hold, and numbers out of range for `uN`. `none` is an error. -/
def compactDec (bits : Nat) : List UInt8 → Option (Nat × List UInt8)
  | [] => none
  | b :: r =>
    if b.toNat % 4 = 0 then some (b.toNat / 4, r)
    else if b.toNat % 4 = 1 then
      match takeN 1 r with
      | none => none
      | some (p, r) =>
        let x := leVal (b :: p) / 4
        if 2 ^ 6 ≤ x ∧ x < 2 ^ bits then some (x, r) else none
    else if b.toNat % 4 = 2 then
      match takeN 3 r with
      | none => none
      | some (p, r) =>
        let x := leVal (b :: p) / 4
        if 2 ^ 14 ≤ x ∧ x < 2 ^ bits then some (x, r) else none
    else
      let k := b.toNat / 4 + 4
      match takeN k r with
      | none => none
      | some (p, r) =>
        let x := leVal p
        if 2 ^ 30 ≤ x ∧ (k = 4 ∨ 256 ^ (k - 1) ≤ x) ∧ x < 2 ^ bits then some (x, r) else none

/-- `core::str::from_utf8` (behind `Str::as_str`, decode.rs:331): Lean core's UTF-8 decoder; `none` is an error. -/
def fromUtf8 (bs : List UInt8) : Option Str := (ByteArray.mk bs.toArray).utf8Decode?.map Array.toList

/-! ### Bit sequences -/

/-- `scale_bits::StoreFormat` as the number of bytes of a store word (encode.rs:166-169). -/
inductive BitStore where
  | u8 | u16 | u32 | u64
  deriving DecidableEq

/-- Bytes of a store word. (behind encode.rs:322, 369) -/
def BitStore.bytes : BitStore → Nat
  | .u8 => 1
  | .u16 => 2
  | .u32 => 4
  | .u64 => 8

/-- `scale_bits::OrderFormat` (encode.rs:166-169). -/
inductive BitOrder where
  | lsb0 | msb0
  deriving DecidableEq

/-- Where in a word of `w` bits its `i`th bit is stored. (behind encode.rs:322, 369) -/
def BitOrder.pos (o : BitOrder) (w i : Nat) : Nat :=
  match o with
  | .lsb0 => i
  | .msb0 => w - 1 - i

/-- The word that holds some bits, the first of which is bit `i` of it. (behind encode.rs:322, 369) -/
def wordVal (o : BitOrder) (w : Nat) : List Bool → Nat → Nat
  | [], _ => 0
  | b :: bs, i => (if b then 2 ^ o.pos w i else 0) ||| wordVal o w bs (i + 1)

/-- The first `n` words of `k` bytes of some bits. (behind encode.rs:322, 369) -/
def encWords (o : BitOrder) (k : Nat) : Nat → List Bool → List UInt8
  | 0, _ => []
  | n + 1, bs => leBytes k (wordVal o (8 * k) (bs.take (8 * k)) 0) ++ encWords o k n (bs.drop (8 * k))

/-- How many words of `w` bits are needed for `n` bits. (behind encode.rs:322, 369) -/
def wordCount (w n : Nat) : Nat := (n + w - 1) / w

/-- `scale_bits::encode_using_format_to` (encode.rs:322): the number of bits as a `Compact<u32>`, and then the store words. -/
def bitsEnc (s : BitStore) (o : BitOrder) (bs : List Bool) : List UInt8 :=
  compactEnc (bs.length % 2 ^ 32) ++ encWords o s.bytes (wordCount (8 * s.bytes) bs.length) bs

/-- The bits of `n` words, and the bytes after them. (behind decode.rs:320) -/
def decWords (o : BitOrder) (k : Nat) : Nat → List UInt8 → Option (List Bool × List UInt8)
  | 0, r => some ([], r)
  | n + 1, bs =>
    match takeN k bs with
    | none => none
    | some (p, r) =>
      match decWords o k n r with
      | none => none
      | some (l, r) => some ((List.range (8 * k)).map (fun i => (leVal p).testBit (o.pos (8 * k) i)) ++ l, r)

/-- `BitSequence::decode` and the cursor movement after it (decode.rs:320). -/
def bitsDec (s : BitStore) (o : BitOrder) (bs : List UInt8) : Option (List Bool × List UInt8) :=
  match compactDec 32 bs with
  | none => none
  | some (n, r) =>
    match decWords o s.bytes (wordCount (8 * s.bytes) n) r with
    | none => none
    | some (l, r) => some (l.take n, r)

end SV
