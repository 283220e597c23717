import Verif.Model.Parse
/-
Model of /repo/src/string_impls/custom_parsers/hex.rs. The code works on the UTF-8 bytes of the string, and so does
this model: nothing about characters is used here but their UTF-8 encoding (Lean's `String.utf8EncodeChar`).
-/
namespace SV

/-- `str::as_bytes`: the UTF-8 encoding. (hex.rs:35) -/
def utf8Bytes (s : Str) : List UInt8 := s.flatMap String.utf8EncodeChar

/-- `u8::is_ascii_alphanumeric` (Rust core). (hex.rs:48) -/
def isAlnumByte (b : UInt8) : Bool :=
  (48 ≤ b.toNat && b.toNat ≤ 57) || (65 ≤ b.toNat && b.toNat ≤ 90) || (97 ≤ b.toNat && b.toNat ≤ 122)

/-- The `match *b` of hex.rs:53-62; `none` is the last arm. -/
def hexNibble (b : UInt8) : Option UInt8 :=
  if 65 ≤ b.toNat && b.toNat ≤ 70 then some (b - 65 + 10)
  else if 97 ≤ b.toNat && b.toNat ≤ 102 then some (b - 97 + 10)
  else if 48 ≤ b.toNat && b.toNat ≤ 57 then some (b - 48)
  else none

/-- `ParseHexError::InvalidChar(c)` as displayed (hex.rs:98-99). -/
def hexInvalidChar (c : Char) : ParseErrorKind :=
  .custom ("Invalid hex character: ".toList ++ [c])

/-- `ParseHexError::WrongLength` as displayed (hex.rs:100-101). -/
def hexWrongLength : ParseErrorKind :=
  .custom "Hex string is the wrong length; should be an even length".toList

/-- How the loop of hex.rs:41-78 ends: an early return with an error, or `break` with the current `idx`, `last_nibble` and
`composite_values`. -/
inductive HexEnd where
  | err (e : ParseError)
  | brk (idx : Nat) (lastNibble : Option UInt8) (vals : List (Value Unit))

/-- The loop of hex.rs:41-78. The first argument is `bytes[idx..]`. -/
def hexScan : List UInt8 → Nat → Option UInt8 → List (Value Unit) → HexEnd
  | [], idx, last, vals => .brk idx last vals
  | b :: bs, idx, last, vals =>
    if !isAlnumByte b then .brk idx last vals
    else match hexNibble b with
      | none => .err ((hexInvalidChar (Char.ofNat b.toNat)).at idx)
      | some h => match last with
        | none => hexScan bs (idx + 1) (some h) vals
        | some n => hexScan bs (idx + 1) none (vals ++ [.u128 (.ofU8 (n * 16 + h))])

/-- `from_utf8_unchecked(&bytes[n..])` (hex.rs:91) for the bytes of a string: the string without its first `n` bytes, or
`none` if byte `n` is not on a character boundary, which is undefined behaviour in Rust. -/
def dropBytes : Nat → Str → Option Str
  | 0, s => some s
  | _ + 1, [] => none
  | n + 1, c :: s => if n + 1 < c.utf8Size then none else dropBytes (n + 1 - c.utf8Size) s
  termination_by _ s => s.length

/-- `str::starts_with("0x")` (hex.rs:31): a comparison of bytes. -/
def startsWith0x (bs : List UInt8) : Bool := [48, 120].isPrefixOf bs

/-- `parse_hex` (hex.rs:30-93); the outer `none` is undefined behaviour. -/
def parseHex? (s : Str) : Option (Option (Except ParseError (Value Unit)) × Str) :=
  if !startsWith0x (utf8Bytes s) then some (none, s)
  else match hexScan ((utf8Bytes s).drop 2) 2 none [] with
    | .err e => some (some (.error e), s)
    | .brk idx last vals =>
      if last.isSome then some (some (.error (hexWrongLength.between 0 idx)), s)
      else match dropBytes idx s with
        | none => none
        | some rest => some (some (.ok (.unnamedComposite vals)), rest)

/-- `parse_hex` as a custom parser. Theorem `C23_never_undefined` shows that the default is never used. (hex.rs:30-93) -/
def parseHex : CustomParser := fun s => (parseHex? s).getD (none, s)

end SV
