import Verif.Model.Hex
import Verif.Model.Ss58
import Verif.Model.Format
import Verif.Model.AnyEnc
import Verif.Model.De
import Verif.Model.Decode
/-
The functions of the crate whose operations can panic (other than for want of memory), once more with these operations as they are: `none` is a panic. Arithmetic is that of
builds that check for overflow.
-/
namespace SV

variable {T W Id Γ : Type}

/-! ### Operations -/

/-- `a + b` for `u8`. (custom_parsers/hex.rs:54, 55, 71) -/
def ckAdd8 (a b : UInt8) : Option UInt8 := if a.toNat + b.toNat < 256 then some (a + b) else none
/-- `a - b` for `u8`. (custom_parsers/hex.rs:54-56) -/
def ckSub8 (a b : UInt8) : Option UInt8 := if b.toNat ≤ a.toNat then some (a - b) else none
/-- `a * b` for `u8`. (custom_parsers/hex.rs:71) -/
def ckMul8 (a b : UInt8) : Option UInt8 := if a.toNat * b.toNat < 256 then some (a * b) else none
/-- `a + b` for `usize` of so many bits. (custom_parsers/hex.rs:77, ss58.rs:71, from_string.rs:248-249) -/
def ckAdd (w : Nat) (a b : Nat) : Option Nat := if a + b < 2 ^ w then some (a + b) else none
/-- `a - b` for `usize`. (ss58.rs:76) -/
def ckSub (a b : Nat) : Option Nat := if b ≤ a then some (a - b) else none
/-- `&l[a..b]` for slices. (ss58.rs:80, 81, 82, 89) -/
def ckSlice {A : Type} (l : List A) (a b : Nat) : Option (List A) := if a ≤ b ∧ b ≤ l.length then some ((l.take b).drop a) else none
/-- `&s[..n]` for strings: byte `n` must be on a character boundary. (ss58.rs:37) -/
def takeBytes : Nat → Str → Option Str
  | 0, _ => some []
  | _ + 1, [] => none
  | n + 1, c :: s => if n + 1 < c.utf8Size then none else (takeBytes (n + 1 - c.utf8Size) s).map (c :: ·)
  termination_by _ s => s.length
/-- `s.find(p)`: the byte offset of the first character of that kind. (ss58.rs:36) -/
def findByte (p : Char → Bool) : Str → Option Nat
  | [] => none
  | c :: s => if p c then some 0 else (findByte p s).map (c.utf8Size + ·)

/-! ### custom_parsers/hex.rs -/

/-- The `match *b` of hex.rs:53-62; the inner `none` is the last arm. -/
def hexNibbleC (b : UInt8) : Option (Option UInt8) :=
  if 65 ≤ b.toNat && b.toNat ≤ 70 then (ckSub8 b 65).bind fun d => (ckAdd8 d 10).map some
  else if 97 ≤ b.toNat && b.toNat ≤ 102 then (ckSub8 b 97).bind fun d => (ckAdd8 d 10).map some
  else if 48 ≤ b.toNat && b.toNat ≤ 57 then (ckSub8 b 48).map some
  else some none

/-- The loop of hex.rs:41-78. -/
def hexScanC (w : Nat) : List UInt8 → Nat → Option UInt8 → List (Value Unit) → Option HexEnd
  | [], idx, last, vals => some (.brk idx last vals)
  | b :: bs, idx, last, vals =>
    if !isAlnumByte b then some (.brk idx last vals)
    else (hexNibbleC b).bind fun
      | none => some (.err ((hexInvalidChar (Char.ofNat b.toNat)).at idx))
      | some h => match last with
        | none => (ckAdd w idx 1).bind fun idx => hexScanC w bs idx (some h) vals
        | some n => (ckMul8 n 16).bind fun m => (ckAdd8 m h).bind fun byte => (ckAdd w idx 1).bind fun idx => hexScanC w bs idx none (vals ++ [.u128 (.ofU8 byte)])

/-- `parse_hex` (hex.rs:30-93); `&bytes[idx..]` must be within the bytes, and (as in `parseHex?`) on a character boundary. -/
def parseHexC (w : Nat) (s : Str) : Option (Option (Except ParseError (Value Unit)) × Str) :=
  if !startsWith0x (utf8Bytes s) then some (none, s)
  else (hexScanC w ((utf8Bytes s).drop 2) 2 none []).bind fun
    | .err e => some (some (.error e), s)
    | .brk idx last vals =>
      if last.isSome then some (some (.error (hexWrongLength.between 0 idx)), s)
      else (ckSlice (utf8Bytes s) idx (utf8Bytes s).length).bind fun _ => (dropBytes idx s).map fun rest => (some (.ok (.unnamedComposite vals)), rest)

/-! ### custom_parsers/ss58.rs -/

/-- `parse_ss58_bytes` (ss58.rs:30-90). -/
def parseSs58BytesC (w : Nat) (u : Uni) (lib : Ss58Lib) (s : Str) : Option (Option (List UInt8) × Str) :=
  let endIdx := (findByte (fun c => !isAsciiAlnum c) s).getD (utf8Len s)
  (takeBytes endIdx s).bind fun maybe => (dropBytes endIdx s).bind fun rest =>
  if maybe.isEmpty then some (none, s)
  else if maybe == ['t', 'r', 'u', 'e'] || maybe == ['f', 'a', 'l', 's', 'e'] || maybe.all isDigit then some (none, s)
  else if (match rest.dropWhile u.ws with
    | c :: _ => c == '(' || c == '{'
    | [] => false) then some (none, s)
  else match lib.fromBase58 maybe with
    | none => some (none, s)
    | some bytes =>
      match ss58PrefixLen bytes with
      | none => some (none, s)
      | some prefixLen => (ckAdd w prefixLen 2).bind fun least =>
        if bytes.length < least then some (none, s)
        else (ckSub bytes.length 2).bind fun checksumStart => (ckSlice bytes 0 checksumStart).bind fun data => (ckSlice (ss58hash lib data) 0 2).bind fun checksum =>
          (ckSlice bytes checksumStart bytes.length).bind fun last =>
          if last ≠ checksum then some (none, s)
          else (ckSlice bytes prefixLen checksumStart).map fun r => (some r, rest)

/-! ### custom_formatters/hex.rs -/

/-- `u4_to_hex` (hex.rs:74-78). -/
def u4ToHexC (n : Nat) : Option Char := ['0', '1', '2', '3', '4', '5', '6', '7', '8', '9', 'A', 'B', 'C', 'D', 'E', 'F'][n]?

/-- The loop of `value_to_hex` (hex.rs:64-71). -/
def hexLoopC (wr : Writer W) : List (Value T) → W → Option (Bool × W)
  | [], w => some (true, w)
  | v :: r, w => match v.asU128Prim with
    | none => hexLoopC wr r w
    | some n => (u4ToHexC (n.val % 256 / 16)).bind fun c => match wr [c] w with
      | (false, w1) => some (false, w1)
      | (true, w1) => (u4ToHexC (n.val % 256 % 16)).bind fun c => match wr [c] w1 with
        | (false, w2) => some (false, w2)
        | (true, w2) => hexLoopC wr r w2

/-- `format_hex` (hex.rs:44-59). -/
def formatHexC (wr : Writer W) : Value T → W → Option (Option Bool × W)
  | .mk (.composite (.unnamed vs)) _, w =>
    if vs.isEmpty then some (none, w)
    else if vs.all (fun v => match v.asU128Prim with
      | some n => n.val < 256
      | none => false) then
      match wr ['0', 'x'] w with
      | (false, w1) => some (some false, w1)
      | (true, w1) => (hexLoopC wr vs w1).map fun r => (some r.1, r.2)
    else some (none, w)
  | _, w => some (none, w)

/-! ### decode.rs and tracing_decoder/visitor.rs -/

/-- `peek_name` of scale-decode's `Composite`: the name of the next field, if there is one and it has one. (decode.rs:370, 375) -/
def peekName (fs : List (Field Id)) : Option Str := fs.head?.bind fun f => f.name

/-- The loop of decode.rs:370-376 with the variable `name`. -/
def namedLoopC (dec : Id → List UInt8 → Option (Out DErr (Value Γ × List UInt8))) :
    List (Field Id) → Option Str → List UInt8 → Option (Out (DErr × List UInt8) (List (Str × Value Γ) × List UInt8))
  | [], _, bs => some (.ok ([], bs))
  | f :: fs, name, bs =>
    match dec f.id bs with
    | none => none
    | some .panic => some .panic
    | some (.err e) => some (.err (e, bs))
    | some (.ok (v, r)) =>
      match name with
      | none => some .panic
      | some name => match namedLoopC dec fs (peekName fs) r with
        | some (.ok (vs, r)) => some (.ok ((name, v) :: vs, r))
        | other => other

/-- `visit_composite` (decode.rs:357-386). -/
def decCompositeC (al : Nat → Bool) (dec : Id → List UInt8 → Option (Out DErr (Value Γ × List UInt8)))
    (fs : List (Field Id)) (bs : List UInt8) : Option (Out (DErr × List UInt8) (Composite Γ × List UInt8)) :=
  if !al fs.length then some .panic
  else if isNamed fs then
    match namedLoopC dec fs (peekName fs) bs with
    | none => none
    | some .panic => some .panic
    | some (.err e) => some (.err e)
    | some (.ok (vs, r)) => some (.ok (.named vs, r))
  else
    match decItems dec (fs.map (fun f => f.id)) bs with
    | none => none
    | some .panic => some .panic
    | some (.err e) => some (.err e)
    | some (.ok (vs, r)) => some (.ok (.unnamed vs, r))

/-! ### encode.rs -/

/-- `find_single_entry_with_same_repr` (encode.rs:231-270) with the `fields.next().expect(..)` of encode.rs:244, 252, and a bound on the depth. -/
def findSingleCN (res : Table Id) : Nat → Id → Bool → Option (Out Unit (Id × Bool))
  | 0, _, _ => none
  | n + 1, t, b =>
    match res t with
    | some (.tuple ids) =>
      if ids.length = 1 then match ids.head? with
        | none => some .panic
        | some u => findSingleCN res n u true
      else some (.ok (t, b))
    | some (.composite fs) =>
      if fs.length = 1 then match fs.head? with
        | none => some .panic
        | some f => findSingleCN res n f.id true
      else some (.ok (t, b))
    | some (.array u len) => if len = 1 then findSingleCN res n u true else some (.ok (t, b))
    | _ => some (.ok (t, b))

/-! ### deserializer.rs -/

/-- `ValueDef::deserialize_option` for variants (deserializer.rs:375-394), with the `vs.pop().expect(..)` of line 382. -/
def Variant.askOptionC : Variant T → Option Reply
  | .mk name c => match c.elems? with
    | some vs =>
      if name = "Some".toList ∧ vs.length = 1 then vs.getLast?.map .some
      else if name = "None".toList ∧ vs.isEmpty then some .none
      else some (.enum (strDer name) (.mk c.ask) (accessOf c.ask))
    | none => some (.enum (strDer name) (.mk c.ask) (accessOf c.ask))

/-! ### from_string.rs -/

/-- The error of a custom parser, with its locations moved (from_string.rs:244-252). -/
def moveErrorC (w : Nat) (off : Nat) (e : ParseError) : Option ParseError :=
  (ckAdd w off e.startLoc).bind fun start => match e.endLoc with
    | none => some ⟨start, none, e.err⟩
    | some l => (ckAdd w off l).map fun l => ⟨start, some l, e.err⟩

end SV
