import Verif.Model.Registry
/-
Model of /repo/src/scale_impls/encode.rs, and dependency models of the parts of `scale-encode` 0.10 that it calls.
-/
namespace SV

variable {Id Γ : Type}

/-- `scale_encode::error::Location` (encode.rs:142, 148). -/
inductive ELoc where
  | field (s : Str)
  | idx (n : Nat)
  deriving DecidableEq

/-- `scale_encode::error::ErrorKind` (encode.rs:21), without the kind of the source value. -/
inductive EKind (Id : Type) where
  | typeNotFound (id : Id)
  | wrongShape (expected : Id)
  | wrongLength (actual expected : Nat)
  | numberOutOfRange (expected : Id)
  | cannotFindField (name : Str)
  | cannotFindVariant (name : Str) (expected : Id)
  | custom
  deriving DecidableEq

/-- `scale_encode::Error` (encode.rs:22): the kind, and where in the value. -/
structure EErr (Id : Type) where
  path : List ELoc
  kind : EKind Id
  deriving DecidableEq

/-- `Error::new` (encode.rs:127). -/
def EErr.of (k : EKind Id) : EErr Id := ⟨[], k⟩
/-- `Error::at_field` (encode.rs:142). -/
def EErr.atField (s : Str) (e : EErr Id) : EErr Id := ⟨.field s :: e.path, e.kind⟩
/-- `Error::at_idx` (encode.rs:148). -/
def EErr.atIdx (n : Nat) (e : EErr Id) : EErr Id := ⟨.idx n :: e.path, e.kind⟩

/-- A function that writes to `out: &mut Vec<u8>` and may fail: the result, and the buffer afterwards, given the buffer before. What was written
before a failure stays in the buffer. (encode.rs:32-33) -/
abbrev EncM (Id : Type) := List UInt8 → Except (EErr Id) Unit × List UInt8

/-- `Err(e)`. (encode.rs:52, 127) -/
def EncM.fail (k : EKind Id) : EncM Id := fun out => (.error (.of k), out)
/-- `out.extend_from_slice(bs)`, `x.encode_to(out)`. (encode.rs:137, 186) -/
def EncM.write (bs : List UInt8) : EncM Id := fun out => (.ok (), out ++ bs)
/-- `a?; b`. (encode.rs:141-142) -/
def EncM.seq (a b : EncM Id) : EncM Id := fun out =>
  match a out with
  | (.ok (), o) => b o
  | (.error e, o) => (.error e, o)
/-- `a.map_err(f)`. (encode.rs:142) -/
def EncM.mapErr (f : EErr Id → EErr Id) (a : EncM Id) : EncM Id := fun out =>
  match a out with
  | (.ok (), o) => (.ok (), o)
  | (.error e, o) => (.error (f e), o)

/-- What the encoders of composites get to see of a value: the name that goes with it, if any; its `encode_as_type_to`; and what it is as
a bit (`encode_vals_to_bitsequence`, encode.rs:283-324). -/
structure Child (Id : Type) where
  name : Option Str
  enc : Id → EncM Id
  bit : Option Bool

/-! ### Looking through wrapper types -/

/-- `find_single_entry_with_same_repr` (encode.rs:231-270) with a bound on the depth. `scale-encode` has the same function. -/
def findSingleN (reg : Reg Id) : Nat → Id → Bool → Id × Bool
  | 0, t, b => (t, b)
  | n + 1, t, b =>
    match reg.resolve t with
    | some (.tuple [u]) => findSingleN reg n u true
    | some (.composite [f]) => findSingleN reg n f.id true
    | some (.array u 1) => findSingleN reg n u true
    | _ => (t, b)

/-- `find_single_entry_with_same_repr` (encode.rs:231-270): the depth of wrappers is less than the bound. -/
def findSingle (reg : Reg Id) (t : Id) : Id × Bool := findSingleN reg (reg.rank t + 1) t false

/-- Dependency model of `skip_through_single_unnamed_fields` of `scale-encode` (behind encode.rs:106, 110), with a bound on the depth. -/
def skipN (reg : Reg Id) : Nat → Id → Id
  | 0, t => t
  | n + 1, t =>
    match reg.resolve t with
    | some (.composite [⟨none, u⟩]) => skipN reg n u
    | some (.tuple [u]) => skipN reg n u
    | _ => t

/-- Dependency model of `skip_through_single_unnamed_fields`. (behind encode.rs:106, 110) -/
def skip (reg : Reg Id) (t : Id) : Id := skipN reg (reg.rank t + 1) t

/-! ### Composites -/

/-- Values one after the other at one type, with their position or name added to an error (encode.rs:138-151, 161-163). `named` says whether names
are used for this. -/
def encItems (t : Id) (named : Bool) : Nat → List (Child Id) → EncM Id
  | _, [] => fun out => (.ok (), out)
  | k, c :: cs =>
    .seq (.mapErr (fun e => match named, c.name with
        | true, some s => e.atField s
        | _, _ => e.atIdx k) (c.enc t))
      (encItems t named (k + 1) cs)

/-- Dependency model, part of `encode_composite_fields_to`: fields of the type are found by name among the values. The map is made by
inserting the values in order, so that the last value with a name counts. (behind encode.rs:68, 106, 336) -/
def encByName (cs : List (Child Id)) : List (Field Id) → EncM Id
  | [] => fun out => (.ok (), out)
  | f :: fs =>
    match cs.reverse.find? (fun c => c.name.getD [] == f.name.getD []) with
    | none => .fail (.cannotFindField (f.name.getD []))
    | some c => .seq (.mapErr (fun e => e.atField (f.name.getD [])) (c.enc f.id)) (encByName cs fs)

/-- Dependency model, part of `encode_composite_fields_to`: values and fields in order. (behind encode.rs:68, 72, 106, 110, 336, 341) -/
def encByOrder : Nat → List (Child Id) → List (Field Id) → EncM Id
  | k, c :: cs, f :: fs =>
    .seq (.mapErr (fun e => match c.name with
        | some s => e.atField s
        | none => e.atIdx k) (c.enc f.id))
      (encByOrder (k + 1) cs fs)
  | _, _, _ => fun out => (.ok (), out)

/-- Dependency model of `scale_encode::Composite::encode_composite_fields_to` (encode.rs:68, 72). -/
def encFieldsTo (cs : List (Child Id)) (fs : List (Field Id)) : EncM Id :=
  if fs.any (fun f => f.name.isSome) && cs.any (fun c => c.name.isSome) then encByName cs fs
  else if fs.length ≠ cs.length then .fail (.wrongLength cs.length fs.length)
  else encByOrder 0 cs fs

/-- Dependency model of `scale_encode::Composite::encode_composite_as_type_to` (encode.rs:106, 110). -/
def encCompositeAsType (reg : Reg Id) (cs : List (Child Id)) (t : Id) : EncM Id :=
  match reg.resolve (skip reg t) with
  | none => .fail (.typeNotFound (skip reg t))
  | some (.composite fs) =>
    match cs.any (fun c => c.name.isSome), cs with
    | false, [c] => c.enc (skip reg t)
    | _, _ => encFieldsTo cs fs
  | some (.tuple ts) =>
    match cs with
    | [c] => c.enc (skip reg t)
    | _ => encFieldsTo cs (ts.map (fun t => ⟨none, t⟩))
  | some _ =>
    match cs with
    | [c] => c.enc (skip reg t)
    | _ => .fail (.wrongShape (skip reg t))

/-- The loop of `encode_vals_to_bitsequence` (encode.rs:288-320). -/
def encBools : Nat → List (Child Id) → Except (EErr Id) (List Bool)
  | _, [] => .ok []
  | k, c :: cs =>
    match c.bit with
    | none => .error ((EErr.of .custom).atIdx k)
    | some b => match encBools (k + 1) cs with
      | .error e => .error e
      | .ok bs => .ok (b :: bs)

/-- `do_encode_composite` (encode.rs:90-176). The default (encode.rs:121-132) is for variants, primitives, `Compact` and for types that are not
found. -/
def doEncodeComposite (reg : Reg Id) (cs : List (Child Id)) (t : Id) : EncM Id :=
  match reg.resolve t with
  | some (.composite _) => encCompositeAsType reg cs t
  | some (.tuple _) => encCompositeAsType reg cs t
  | some (.sequence u) => .seq (.write (compactEnc (cs.length % 2 ^ 32))) (encItems u true 0 cs)
  | some (.array u n) => if cs.length ≠ n then .fail (.wrongLength cs.length n) else encItems u false 0 cs
  | some (.bitSequence s o) => match encBools 0 cs with
    | .error e => fun out => (.error e, out)
    | .ok bs => .write (bitsEnc s o bs)
  | _ => match cs with
    | [c] => c.enc t
    | _ => .fail (.wrongShape t)

/-- The last attempt of `encode_composite` (encode.rs:211-225, with `get_only_value_from_composite`, encode.rs:273-279). -/
def encLast (cs : List (Child Id)) (t : Id) (original : EErr Id) : EncM Id := fun out =>
  match cs with
  | [c] => match c.enc t [] with
    | (.ok (), tmp) => (.ok (), out ++ tmp)
    | (.error _, _) => (.error original, out)
  | _ => (.error original, out)

/-- `encode_composite` (encode.rs:82-226). -/
def encComposite (reg : Reg Id) (cs : List (Child Id)) (t : Id) : EncM Id := fun out =>
  match doEncodeComposite reg cs t [] with
  | (.ok (), tmp) => (.ok (), out ++ tmp)
  | (.error original, _) =>
    match findSingle reg t with
    | (inner, true) =>
      match doEncodeComposite reg cs inner [] with
      | (.ok (), tmp) => (.ok (), out ++ tmp)
      | (.error _, _) => encLast cs inner original out
    | (_, false) => encLast cs t original out

/-! ### Variants -/

/-- `encode_variant` (encode.rs:326-344): dependency model of `scale_encode::Variant::encode_variant_as_type_to`. -/
def encVariant (reg : Reg Id) (name : Str) (cs : List (Child Id)) (t : Id) : EncM Id :=
  match reg.resolve (findSingle reg t).1 with
  | some (.variant ds) =>
    match ds.find? (fun d => d.name == name) with
    | none => .fail (.cannotFindVariant name (findSingle reg t).1)
    | some d => .seq (.write [d.index]) (encFieldsTo cs d.fields)
  | none => .fail (.typeNotFound (findSingle reg t).1)
  | some _ => .fail (.wrongShape (findSingle reg t).1)

/-! ### Primitives: dependency models -/

/-- An unsigned number in `k` bytes, if it fits. (behind encode.rs:354-357) -/
def encUintK (t : Id) (k : Nat) (n : Int) : EncM Id :=
  if 0 ≤ n ∧ n < (256 ^ k : Nat) then .write (leBytes k n.toNat) else .fail (.numberOutOfRange t)

/-- A signed number in `k` bytes, if it fits. (behind encode.rs:356-357) -/
def encIntK (t : Id) (k : Nat) (n : Int) : EncM Id :=
  if -(256 ^ k : Nat) ≤ 2 * n ∧ 2 * n < (256 ^ k : Nat) then .write (leBytesInt k n) else .fail (.numberOutOfRange t)

/-- A compact number of at most `k` bytes. (behind encode.rs:356-357) -/
def encCompactK (t : Id) (k : Nat) (n : Int) : EncM Id :=
  if 0 ≤ n ∧ n < (256 ^ k : Nat) then .write (compactEnc n.toNat) else .fail (.numberOutOfRange t)

/-- `encode_as_type_to` of the integers (encode.rs:356-357). `char` as `u32` (encode.rs:354) also comes here; `charToChar` says whether a number is
accepted for the primitive type `char` (which depends on the version of `scale-encode`). -/
def encNum (reg : Reg Id) (charToChar : Bool) (n : Int) (t : Id) : EncM Id :=
  let u := (findSingle reg t).1
  match reg.resolve u with
  | some (.primitive .u8) => encUintK u 1 n
  | some (.primitive .u16) => encUintK u 2 n
  | some (.primitive .u32) => encUintK u 4 n
  | some (.primitive .u64) => encUintK u 8 n
  | some (.primitive .u128) => encUintK u 16 n
  | some (.primitive .i8) => encIntK u 1 n
  | some (.primitive .i16) => encIntK u 2 n
  | some (.primitive .i32) => encIntK u 4 n
  | some (.primitive .i64) => encIntK u 8 n
  | some (.primitive .i128) => encIntK u 16 n
  | some (.primitive .char) => if charToChar then encUintK u 4 n else .fail (.wrongShape u)
  | some (.compact w) =>
    match reg.resolve (findSingle reg w).1 with
    | some (.primitive .u8) => encCompactK u 1 n
    | some (.primitive .u16) => encCompactK u 2 n
    | some (.primitive .u32) => encCompactK u 4 n
    | some (.primitive .u64) => encCompactK u 8 n
    | some (.primitive .u128) => encCompactK u 16 n
    | _ => .fail (.wrongShape u)
  | none => .fail (.typeNotFound u)
  | some _ => .fail (.wrongShape u)

/-- `encode_as_type_to` of `bool` (encode.rs:353). -/
def encBool (reg : Reg Id) (b : Bool) (t : Id) : EncM Id :=
  let u := (findSingle reg t).1
  match reg.resolve u with
  | some (.primitive .bool) => .write [if b then 1 else 0]
  | none => .fail (.typeNotFound u)
  | some _ => .fail (.wrongShape u)

/-- `encode_as_type_to` of `str` (encode.rs:355). Not modelled: strings of 2^32 bytes and more, for which the codec panics. -/
def encStr (reg : Reg Id) (s : Str) (t : Id) : EncM Id :=
  let u := (findSingle reg t).1
  match reg.resolve u with
  | some (.primitive .str) => .write (compactEnc (utf8Bytes s).length ++ utf8Bytes s)
  | none => .fail (.typeNotFound u)
  | some _ => .fail (.wrongShape u)

/-- The bytes of an array, each as a number. (behind encode.rs:358-359) -/
def byteChildren (reg : Reg Id) (bs : List UInt8) : List (Child Id) :=
  bs.map (fun b => ⟨none, encNum reg false b.toNat, none⟩)

/-- `encode_as_type_to` of `[u8; 32]` (encode.rs:358-359), with a bound on the depth of wrappers: sequences, arrays of length 32 and structs and
tuples with one field. -/
def encBytesN (reg : Reg Id) (bs : List UInt8) : Nat → Id → EncM Id
  | 0, t => .fail (.wrongShape t)
  | n + 1, t =>
    match reg.resolve t with
    | some (.array u k) => if bs.length ≠ k then .fail (.wrongLength bs.length k) else encItems u false 0 (byteChildren reg bs)
    | some (.sequence u) => .seq (.write (compactEnc (bs.length % 2 ^ 32))) (encItems u false 0 (byteChildren reg bs))
    | some (.composite [f]) => encBytesN reg bs n f.id
    | some (.tuple [u]) => encBytesN reg bs n u
    | none => .fail (.typeNotFound t)
    | some _ => .fail (.wrongShape t)

/-- `encode_bitsequence` (encode.rs:363-370). -/
def encBits (reg : Reg Id) (b : List Bool) (t : Id) : EncM Id :=
  let u := (findSingle reg t).1
  match reg.resolve u with
  | some (.bitSequence s o) => .write (bitsEnc s o b)
  | none => .fail (.typeNotFound u)
  | some _ => .fail (.wrongShape u)

/-- `encode_primitive` (encode.rs:346-361). -/
def encPrimitive (reg : Reg Id) (charToChar : Bool) (p : Primitive) (t : Id) : EncM Id :=
  match p with
  | .bool b => encBool reg b t
  | .char c => encNum reg charToChar c.toNat t
  | .string s => encStr reg s t
  | .u128 n => encNum reg false n.val t
  | .i128 n => encNum reg false n.val t
  | .u256 b => encBytesN reg b.bytes (reg.rank t + 1) t
  | .i256 b => encBytesN reg b.bytes (reg.rank t + 1) t

/-! ### Values -/

/-- The tests of `encode_vals_to_bitsequence` on one value (encode.rs:290-319). -/
def bitOf (v : Value Γ) : Option Bool :=
  match v.asBool with
  | some b => some b
  | none => match v.asU128 with
    | some n => if n.val = 0 ∨ n.val = 1 then some (decide (n.val = 1)) else none
    | none => match v.asI128 with
      | some n => if n.val = 0 ∨ n.val = 1 then some (decide (n.val = 1)) else none
      | none => none

mutual
/-- `<Value<T> as EncodeAsType>::encode_as_type_to` (encode.rs:27-41), also `scale::encode_as_type` (lib.rs:238-245). -/
def Value.encode (reg : Reg Id) (charToChar : Bool) : Value Γ → Id → EncM Id
  | .mk d _ => d.encode reg charToChar
/-- The match of encode.rs:34-39. -/
def ValueDef.encode (reg : Reg Id) (charToChar : Bool) : ValueDef Γ → Id → EncM Id
  | .composite c => encComposite reg (c.encChildren reg charToChar)
  | .variant (.mk n c) => encVariant reg n (c.encChildren reg charToChar)
  | .primitive p => encPrimitive reg charToChar p
  | .bitSequence b => encBits reg b
/-- The values with their names, as handed to `EncodeComposite::new` (encode.rs:101-112, 332-343). -/
def Composite.encChildren (reg : Reg Id) (charToChar : Bool) : Composite Γ → List (Child Id)
  | .named fs => encNamed reg charToChar fs
  | .unnamed vs => encUnnamed reg charToChar vs
/-- `vals.iter().map(|(key, val)| (Some(&**key), CompositeField::new(val)))` (encode.rs:67, 104, 334). -/
def encNamed (reg : Reg Id) (charToChar : Bool) : List (Str × Value Γ) → List (Child Id)
  | [] => []
  | (k, v) :: r => ⟨some k, v.encode reg charToChar, bitOf v⟩ :: encNamed reg charToChar r
/-- `vals.iter().map(|val| (None, CompositeField::new(val)))` (encode.rs:71, 109, 339). -/
def encUnnamed (reg : Reg Id) (charToChar : Bool) : List (Value Γ) → List (Child Id)
  | [] => []
  | v :: r => ⟨none, v.encode reg charToChar, bitOf v⟩ :: encUnnamed reg charToChar r
end

/-- `<Composite<T> as EncodeAsFields>::encode_as_fields_to` (encode.rs:57-76). -/
def Composite.encodeAsFields (reg : Reg Id) (charToChar : Bool) (c : Composite Γ) (fs : List (Field Id)) : EncM Id :=
  encFieldsTo (c.encChildren reg charToChar) fs

/-- `<Value<T> as EncodeAsFields>::encode_as_fields_to` (encode.rs:43-55). -/
def Value.encodeAsFields (reg : Reg Id) (charToChar : Bool) (v : Value Γ) (fs : List (Field Id)) : EncM Id :=
  match v.value with
  | .composite c => c.encodeAsFields reg charToChar fs
  | _ => .fail .custom

end SV
