import Verif.Model.Encode
import Verif.Model.AnyReg
/-
Encoding with type registries of any kind, also those in which looking through wrapper types has no end (which `Reg` excludes). The definitions are those
of `Model/Encode`, with an outcome more: `none` is a call that never returns. C86 ties the two.
-/
namespace SV

variable {Id Γ : Type}

/-- `EncM`, and `none` if the function never returns. (encode.rs:32-33) -/
abbrev EncT (Id : Type) := List UInt8 → Option (Except (EErr Id) Unit × List UInt8)

/-- A function that returns. (encode.rs:32-33) -/
def EncT.ret (a : EncM Id) : EncT Id := fun out => some (a out)
/-- `a?; b`. (encode.rs:141-142) -/
def EncT.seq (a b : EncT Id) : EncT Id := fun out =>
  match a out with
  | none => none
  | some (.ok (), o) => b o
  | some (.error e, o) => some (.error e, o)
/-- `a.map_err(f)`. (encode.rs:142) -/
def EncT.mapErr (f : EErr Id → EErr Id) (a : EncT Id) : EncT Id := fun out =>
  match a out with
  | none => none
  | some (.ok (), o) => some (.ok (), o)
  | some (.error e, o) => some (.error (f e), o)
/-- What is done with the result of a search through the types, which may never return. (encode.rs:199-200) -/
def EncT.after {A : Type} (a : Option A) (f : A → EncT Id) : EncT Id := fun out =>
  match a with
  | none => none
  | some x => f x out

/-- `Child` with functions that may not return. (encode.rs:283-324) -/
structure ChildT (Id : Type) where
  name : Option Str
  enc : Id → EncT Id
  bit : Option Bool

/-! ### Looking through wrapper types -/

/-- `find_single_entry_with_same_repr` (encode.rs:231-270) with a bound on the depth; `none` is running out of it. -/
def findSingleTN (res : Table Id) : Nat → Id → Bool → Option (Id × Bool)
  | 0, _, _ => none
  | n + 1, t, b =>
    match res t with
    | some (.tuple [u]) => findSingleTN res n u true
    | some (.composite [f]) => findSingleTN res n f.id true
    | some (.array u 1) => findSingleTN res n u true
    | _ => some (t, b)

/-- `find_single_entry_with_same_repr` (encode.rs:231-270) with any table. -/
noncomputable def findSingleT (res : Table Id) (t : Id) : Option (Id × Bool) := limit (fun n => findSingleTN res n t false)

/-- Dependency model of `skip_through_single_unnamed_fields` of `scale-encode` (behind encode.rs:106, 110), with a bound on the depth; `none` is running out of it. -/
def skipTN (res : Table Id) : Nat → Id → Option Id
  | 0, _ => none
  | n + 1, t =>
    match res t with
    | some (.composite [⟨none, u⟩]) => skipTN res n u
    | some (.tuple [u]) => skipTN res n u
    | _ => some t

/-- `skip` with any table. (behind encode.rs:106, 110) -/
noncomputable def skipT (res : Table Id) (t : Id) : Option Id := limit (fun n => skipTN res n t)

/-! ### Composites -/

/-- `encItems` (encode.rs:138-151, 161-163). -/
def encItemsT (t : Id) (named : Bool) : Nat → List (ChildT Id) → EncT Id
  | _, [] => .ret fun out => (.ok (), out)
  | k, c :: cs =>
    .seq (.mapErr (fun e => match named, c.name with
        | true, some s => e.atField s
        | _, _ => e.atIdx k) (c.enc t))
      (encItemsT t named (k + 1) cs)

/-- `encByName`. (behind encode.rs:68, 106, 336) -/
def encByNameT (cs : List (ChildT Id)) : List (Field Id) → EncT Id
  | [] => .ret fun out => (.ok (), out)
  | f :: fs =>
    match cs.reverse.find? (fun c => c.name.getD [] == f.name.getD []) with
    | none => .ret (.fail (.cannotFindField (f.name.getD [])))
    | some c => .seq (.mapErr (fun e => e.atField (f.name.getD [])) (c.enc f.id)) (encByNameT cs fs)

/-- `encByOrder`. (behind encode.rs:68, 72, 106, 110, 336, 341) -/
def encByOrderT : Nat → List (ChildT Id) → List (Field Id) → EncT Id
  | k, c :: cs, f :: fs =>
    .seq (.mapErr (fun e => match c.name with
        | some s => e.atField s
        | none => e.atIdx k) (c.enc f.id))
      (encByOrderT (k + 1) cs fs)
  | _, _, _ => .ret fun out => (.ok (), out)

/-- `encFieldsTo` (encode.rs:68, 72). -/
def encFieldsToT (cs : List (ChildT Id)) (fs : List (Field Id)) : EncT Id :=
  if fs.any (fun f => f.name.isSome) && cs.any (fun c => c.name.isSome) then encByNameT cs fs
  else if fs.length ≠ cs.length then .ret (.fail (.wrongLength cs.length fs.length))
  else encByOrderT 0 cs fs

/-- `encCompositeAsType` (encode.rs:106, 110). -/
noncomputable def encCompositeAsTypeT (res : Table Id) (cs : List (ChildT Id)) (t : Id) : EncT Id :=
  .after (skipT res t) fun u =>
  match res u with
  | none => .ret (.fail (.typeNotFound u))
  | some (.composite fs) =>
    match cs.any (fun c => c.name.isSome), cs with
    | false, [c] => c.enc u
    | _, _ => encFieldsToT cs fs
  | some (.tuple ts) =>
    match cs with
    | [c] => c.enc u
    | _ => encFieldsToT cs (ts.map (fun t => ⟨none, t⟩))
  | some _ =>
    match cs with
    | [c] => c.enc u
    | _ => .ret (.fail (.wrongShape u))

/-- The loop of `encode_vals_to_bitsequence` (encode.rs:288-320). -/
def encBoolsT : Nat → List (ChildT Id) → Except (EErr Id) (List Bool)
  | _, [] => .ok []
  | k, c :: cs =>
    match c.bit with
    | none => .error ((EErr.of .custom).atIdx k)
    | some b => match encBoolsT (k + 1) cs with
      | .error e => .error e
      | .ok bs => .ok (b :: bs)

/-- `do_encode_composite` (encode.rs:90-176). -/
noncomputable def doEncodeCompositeT (res : Table Id) (cs : List (ChildT Id)) (t : Id) : EncT Id :=
  match res t with
  | some (.composite _) => encCompositeAsTypeT res cs t
  | some (.tuple _) => encCompositeAsTypeT res cs t
  | some (.sequence u) => .seq (.ret (.write (compactEnc (cs.length % 2 ^ 32)))) (encItemsT u true 0 cs)
  | some (.array u n) => if cs.length ≠ n then .ret (.fail (.wrongLength cs.length n)) else encItemsT u false 0 cs
  | some (.bitSequence s o) => match encBoolsT 0 cs with
    | .error e => .ret (fun out => (.error e, out))
    | .ok bs => .ret (.write (bitsEnc s o bs))
  | _ => match cs with
    | [c] => c.enc t
    | _ => .ret (.fail (.wrongShape t))

/-- The last attempt of `encode_composite` (encode.rs:211-225, 273-279). -/
def encLastT (cs : List (ChildT Id)) (t : Id) (original : EErr Id) : EncT Id := fun out =>
  match cs with
  | [c] => match c.enc t [] with
    | none => none
    | some (.ok (), tmp) => some (.ok (), out ++ tmp)
    | some (.error _, _) => some (.error original, out)
  | _ => some (.error original, out)

/-- `encode_composite` (encode.rs:82-226). -/
noncomputable def encCompositeT (res : Table Id) (cs : List (ChildT Id)) (t : Id) : EncT Id := fun out =>
  match doEncodeCompositeT res cs t [] with
  | none => none
  | some (.ok (), tmp) => some (.ok (), out ++ tmp)
  | some (.error original, _) =>
    match findSingleT res t with
    | none => none
    | some (inner, true) =>
      match doEncodeCompositeT res cs inner [] with
      | none => none
      | some (.ok (), tmp) => some (.ok (), out ++ tmp)
      | some (.error _, _) => encLastT cs inner original out
    | some (_, false) => encLastT cs t original out

/-! ### Variants -/

/-- `encode_variant` (encode.rs:326-344). -/
noncomputable def encVariantT (res : Table Id) (name : Str) (cs : List (ChildT Id)) (t : Id) : EncT Id :=
  .after (findSingleT res t) fun p =>
  match res p.1 with
  | some (.variant ds) =>
    match ds.find? (fun d => d.name == name) with
    | none => .ret (.fail (.cannotFindVariant name p.1))
    | some d => .seq (.ret (.write [d.index])) (encFieldsToT cs d.fields)
  | none => .ret (.fail (.typeNotFound p.1))
  | some _ => .ret (.fail (.wrongShape p.1))

/-! ### Primitives -/

/-- `encNum` (encode.rs:354, 356-357). -/
noncomputable def encNumT (res : Table Id) (charToChar : Bool) (n : Int) (t : Id) : EncT Id :=
  .after (findSingleT res t) fun p =>
  match res p.1 with
  | some (.primitive .u8) => .ret (encUintK p.1 1 n)
  | some (.primitive .u16) => .ret (encUintK p.1 2 n)
  | some (.primitive .u32) => .ret (encUintK p.1 4 n)
  | some (.primitive .u64) => .ret (encUintK p.1 8 n)
  | some (.primitive .u128) => .ret (encUintK p.1 16 n)
  | some (.primitive .i8) => .ret (encIntK p.1 1 n)
  | some (.primitive .i16) => .ret (encIntK p.1 2 n)
  | some (.primitive .i32) => .ret (encIntK p.1 4 n)
  | some (.primitive .i64) => .ret (encIntK p.1 8 n)
  | some (.primitive .i128) => .ret (encIntK p.1 16 n)
  | some (.primitive .char) => .ret (if charToChar then encUintK p.1 4 n else .fail (.wrongShape p.1))
  | some (.compact w) =>
    .after (findSingleT res w) fun q =>
    match res q.1 with
    | some (.primitive .u8) => .ret (encCompactK p.1 1 n)
    | some (.primitive .u16) => .ret (encCompactK p.1 2 n)
    | some (.primitive .u32) => .ret (encCompactK p.1 4 n)
    | some (.primitive .u64) => .ret (encCompactK p.1 8 n)
    | some (.primitive .u128) => .ret (encCompactK p.1 16 n)
    | _ => .ret (.fail (.wrongShape p.1))
  | none => .ret (.fail (.typeNotFound p.1))
  | some _ => .ret (.fail (.wrongShape p.1))

/-- `encBool` (encode.rs:353). -/
noncomputable def encBoolT (res : Table Id) (b : Bool) (t : Id) : EncT Id :=
  .after (findSingleT res t) fun p =>
  match res p.1 with
  | some (.primitive .bool) => .ret (.write [if b then 1 else 0])
  | none => .ret (.fail (.typeNotFound p.1))
  | some _ => .ret (.fail (.wrongShape p.1))

/-- `encStr` (encode.rs:355). -/
noncomputable def encStrT (res : Table Id) (s : Str) (t : Id) : EncT Id :=
  .after (findSingleT res t) fun p =>
  match res p.1 with
  | some (.primitive .str) => .ret (.write (compactEnc (utf8Bytes s).length ++ utf8Bytes s))
  | none => .ret (.fail (.typeNotFound p.1))
  | some _ => .ret (.fail (.wrongShape p.1))

/-- `byteChildren`. (behind encode.rs:358-359) -/
noncomputable def byteChildrenT (res : Table Id) (bs : List UInt8) : List (ChildT Id) :=
  bs.map (fun b => ⟨none, encNumT res false b.toNat, none⟩)

/-- `encBytesN` (encode.rs:358-359); `none` is also running out of the bound on the depth. -/
noncomputable def encBytesTN (res : Table Id) (bs : List UInt8) : Nat → Id → EncT Id
  | 0, _ => fun _ => none
  | n + 1, t =>
    match res t with
    | some (.array u k) => if bs.length ≠ k then .ret (.fail (.wrongLength bs.length k)) else encItemsT u false 0 (byteChildrenT res bs)
    | some (.sequence u) => .seq (.ret (.write (compactEnc (bs.length % 2 ^ 32)))) (encItemsT u false 0 (byteChildrenT res bs))
    | some (.composite [f]) => encBytesTN res bs n f.id
    | some (.tuple [u]) => encBytesTN res bs n u
    | none => .ret (.fail (.typeNotFound t))
    | some _ => .ret (.fail (.wrongShape t))

/-- `encode_as_type_to` of `[u8; 32]` (encode.rs:358-359). -/
noncomputable def encBytesT (res : Table Id) (bs : List UInt8) (t : Id) : EncT Id := fun out => limit (fun n => encBytesTN res bs n t out)

/-- `encode_bitsequence` (encode.rs:363-370). -/
noncomputable def encBitsT (res : Table Id) (b : List Bool) (t : Id) : EncT Id :=
  .after (findSingleT res t) fun p =>
  match res p.1 with
  | some (.bitSequence s o) => .ret (.write (bitsEnc s o b))
  | none => .ret (.fail (.typeNotFound p.1))
  | some _ => .ret (.fail (.wrongShape p.1))

/-- `encode_primitive` (encode.rs:346-361). -/
noncomputable def encPrimitiveT (res : Table Id) (charToChar : Bool) (p : Primitive) (t : Id) : EncT Id :=
  match p with
  | .bool b => encBoolT res b t
  | .char c => encNumT res charToChar c.toNat t
  | .string s => encStrT res s t
  | .u128 n => encNumT res false n.val t
  | .i128 n => encNumT res false n.val t
  | .u256 b => encBytesT res b.bytes t
  | .i256 b => encBytesT res b.bytes t

/-! ### Values -/

mutual
/-- `<Value<T> as EncodeAsType>::encode_as_type_to` (encode.rs:27-41), also `scale::encode_as_type` (lib.rs:238-245), with any table. -/
noncomputable def Value.encodeT (res : Table Id) (charToChar : Bool) : Value Γ → Id → EncT Id
  | .mk d _ => d.encodeT res charToChar
/-- The match of encode.rs:34-39. -/
noncomputable def ValueDef.encodeT (res : Table Id) (charToChar : Bool) : ValueDef Γ → Id → EncT Id
  | .composite c => encCompositeT res (c.encChildrenT res charToChar)
  | .variant (.mk n c) => encVariantT res n (c.encChildrenT res charToChar)
  | .primitive p => encPrimitiveT res charToChar p
  | .bitSequence b => encBitsT res b
/-- `Composite.encChildren` (encode.rs:101-112, 332-343). -/
noncomputable def Composite.encChildrenT (res : Table Id) (charToChar : Bool) : Composite Γ → List (ChildT Id)
  | .named fs => encNamedT res charToChar fs
  | .unnamed vs => encUnnamedT res charToChar vs
/-- `encNamed` (encode.rs:67, 104, 334). -/
noncomputable def encNamedT (res : Table Id) (charToChar : Bool) : List (Str × Value Γ) → List (ChildT Id)
  | [] => []
  | (k, v) :: r => ⟨some k, v.encodeT res charToChar, bitOf v⟩ :: encNamedT res charToChar r
/-- `encUnnamed` (encode.rs:71, 109, 339). -/
noncomputable def encUnnamedT (res : Table Id) (charToChar : Bool) : List (Value Γ) → List (ChildT Id)
  | [] => []
  | v :: r => ⟨none, v.encodeT res charToChar, bitOf v⟩ :: encUnnamedT res charToChar r
end

/-- `<Composite<T> as EncodeAsFields>::encode_as_fields_to` (encode.rs:57-76) with any table. -/
noncomputable def Composite.encodeAsFieldsT (res : Table Id) (charToChar : Bool) (c : Composite Γ) (fs : List (Field Id)) : EncT Id :=
  encFieldsToT (c.encChildrenT res charToChar) fs

/-- `<Value<T> as EncodeAsFields>::encode_as_fields_to` (encode.rs:43-55) with any table. -/
noncomputable def Value.encodeAsFieldsT (res : Table Id) (charToChar : Bool) (v : Value Γ) (fs : List (Field Id)) : EncT Id :=
  match v.value with
  | .composite c => c.encodeAsFieldsT res charToChar fs
  | _ => .ret (.fail .custom)

end SV
