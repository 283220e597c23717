import Verif.Model.Parse
/-
Model of /repo/src/string_impls/custom_parsers/ss58.rs.
-/
namespace SV

/-- The dependencies of ss58.rs that are not in /repo: `base58::FromBase58::from_base58` (`none` for its errors) and
`Blake2b512` over some bytes. Of these only lengths are assumed: base 58 decoding does not make a text longer, and a
hash has 64 bytes. -/
structure Ss58Lib where
  fromBase58 : Str → Option (List UInt8)
  blake2b512 : List UInt8 → List UInt8
  base58_len : ∀ s bs, fromBase58 s = some bs → bs.length ≤ s.length
  hash_len : ∀ bs, (blake2b512 bs).length = 64

/-- `ss58hash` (ss58.rs:92-99): `b"SS58PRE"` and then the data is hashed. -/
def ss58hash (lib : Ss58Lib) (data : List UInt8) : List UInt8 :=
  lib.blake2b512 ([0x53, 0x53, 0x35, 0x38, 0x50, 0x52, 0x45] ++ data)

/-- The length of the prefix (ss58.rs:65-69); `none` is the `return None`. -/
def ss58PrefixLen (bytes : List UInt8) : Option Nat :=
  match bytes.head? with
  | some b => if b.toNat ≤ 63 then some 1 else if b.toNat ≤ 127 then some 2 else none
  | none => none

/-- `parse_ss58_bytes` (ss58.rs:30-90). -/
def parseSs58Bytes (u : Uni) (lib : Ss58Lib) (s : Str) : Option (List UInt8) × Str :=
  let maybe := s.takeWhile isAsciiAlnum
  let rest := s.dropWhile isAsciiAlnum
  if maybe.isEmpty then (none, s)
  else if maybe == ['t', 'r', 'u', 'e'] || maybe == ['f', 'a', 'l', 's', 'e'] || maybe.all isDigit then (none, s)
  else if (match rest.dropWhile u.ws with
    | c :: _ => c == '(' || c == '{'
    | [] => false) then (none, s)
  else match lib.fromBase58 maybe with
    | none => (none, s)
    | some bytes =>
      match ss58PrefixLen bytes with
      | none => (none, s)
      | some prefixLen =>
        if bytes.length < prefixLen + 2 then (none, s)
        else
          let checksumStart := bytes.length - 2
          let hash := ss58hash lib (bytes.take checksumStart)
          let checksum := hash.take 2
          if bytes.drop checksumStart ≠ checksum then (none, s)
          else (some ((bytes.take checksumStart).drop prefixLen), rest)

/-- `parse_ss58` (ss58.rs:25-28). -/
def parseSs58 (u : Uni) (lib : Ss58Lib) : CustomParser := fun s =>
  match parseSs58Bytes u lib s with
  | (none, r) => (none, r)
  | (some bytes, r) => (some (.ok (.fromBytes bytes)), r)

end SV
