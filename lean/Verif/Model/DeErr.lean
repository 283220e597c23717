import Verif.Model.Typed
import Verif.Model.ErrorShow
/-
The functions of `Model/De.lean` and `Model/Typed.lean` that read from a deserializer once more, this time with the error that they return. In the code an error
is a string (`DeserializerError`, deserializer.rs:36-60); here it is what the string is made of. The visitors of deserialize.rs and bitvec_helpers.rs are in /repo; those for other
types are serde's and serde_derive's (dependency model), as in `Model/Typed.lean`.
-/
namespace SV

/-- `Display for DeserializerError` (deserializer.rs:39) for the errors that deserializer.rs makes itself. `name` is the name of the type that is read. -/
def Refusal.display (name : Str) : Refusal → Str
  | .bitsNewtype => "Cannot deserialize BitSequence into a newtype struct".toList                 -- 257
  | .bitsTuple => "Cannot deserialize BitSequence into a tuple".toList                            -- 268
  | .bitsTupleStruct => "Cannot deserialize BitSequence into a tuple struct".toList               -- 284
  | .bitsUnit => "Cannot deserialize BitSequence into a ()".toList                                -- 295
  | .bitsUnitStruct => "Cannot deserialize BitSequence into the unit struct ".toList ++ name      -- 310
  | .bitsEnum => "Cannot deserialize BitSequence into the enum ".toList ++ name                   -- 326
  | .bitsBytes => "Cannot deserialize BitSequence into raw bytes".toList                          -- 337, 348
  | .bitsSeq => "Cannot deserialize BitSequence into a sequence".toList                           -- 359
  | .bitsMap => "Cannot deserialize BitSequence into a map".toList                                -- 370
  | .tupleLength got want =>                                                                      -- 448-452, 460-464
    "Cannot deserialize composite of length ".toList ++ showNat got ++ " into tuple of length ".toList ++ showNat want
  | .nonEmptyUnit => "Cannot deserialize non-empty Composite into a unit value".toList            -- 492
  | .byteRange => "Cannot deserialize composite that is not entirely U8's into bytes (number out of range)".toList  -- 527
  | .byteNonNumeric => "Cannot deserialize composite that is not entirely U8's into bytes (non-numeric values encountered)".toList  -- 531
  | .foreign msg => msg

/-- serde's `Unexpected`: what a visitor was given. `visit_char` of a visitor that does not accept characters is `visit_str`. (behind lib.rs:107) -/
inductive Unexp where
  | bool (b : Bool) | num (n : Num) | float | str (s : Str) | bytes (bs : List UInt8) | unit | option | newtype | seq | map | enum

/-- Which visitor (its `expecting`) an error comes from. (deserialize.rs:102-104, 164-166, 218-220, 310-312, and behind lib.rs:107) -/
inductive Expect where
  | bool | num (t : NumTy) | char | string | bytes | unit | option | newtype | seq | tuple | struct | enum | ident | map
  | value | composite | variant | primitive
  /-- `"exactly 32 bytes"` (deserialize.rs:154) -/
  | bytes32

/-- What `expecting` of the visitors of deserialize.rs writes (deserialize.rs:102-104, 164-166, 218-220, 310-312). -/
def Expect.text : Expect → Option Str
  | .primitive => some "a type that can be decoded into a Primitive value".toList
  | .composite => some "a type that can be decoded into a Composite value".toList
  | .variant => some "a type that can be decoded into an enum Variant".toList
  | .value => some "a type that can be decoded into a Value".toList
  | .bytes32 => some "exactly 32 bytes".toList
  | _ => none

/-- The errors of reading: those of the deserializer, and those of serde's `de::Error` that visitors make. (deserializer.rs:52-56) -/
inductive DeErr where
  | refused (e : Refusal)
  | invalidType (got : Unexp) (exp : Expect)
  | invalidValue (got : Unexp) (exp : Expect)
  | invalidLength (n : Nat) (exp : Expect)
  | missingField (n : Str)
  | duplicateField (n : Str)
  | unknownVariant (n : Str)
  /-- `unknown_field(other, &["name", "values"])` (deserialize.rs:275) -/
  | unknownField (n : Str)
  /-- `"map must contain 'name' and 'values' to deserialize to a Variant"` (deserialize.rs:282-284) -/
  | noNameAndValues
  /-- Elements of a sequence or map were not read, and the deserializer insists that they are. -/
  | leftover

/-- What serde's default `visit_*` methods say they were given. (behind lib.rs:107) -/
def Reply.unexp : Reply → Unexp
  | .bool b => .bool b
  | .num n => .num n
  | .float => .float
  | .char c => .str [c]
  | .str s => .str s
  | .bytes bs => .bytes bs
  | .unit => .unit
  | .none | .some _ => .option
  | .newtype _ => .newtype
  | .seq _ _ | .self => .seq
  | .map _ _ => .map
  | .enum _ _ _ => .enum
  | .error _ => .unit

/-- The result of a visitor that does not accept what it is given: the error of the deserializer if this is one, else `invalid_type`. (behind lib.rs:107) -/
def Reply.wrong (r : Reply) (exp : Expect) : DeErr :=
  match r with
  | .error e => .refused e
  | r => .invalidType r.unexp exp

/-- serde's `String::deserialize`. (bitvec_helpers.rs:72, deserialize.rs:267) -/
def deStringE (d : Der) : Except DeErr Str :=
  match d.visit .str with
  | .str s => .ok s
  | .char c => .ok [c]
  | .bytes bs => match fromUtf8 bs with
    | some s => .ok s
    | none => .error (.invalidValue (.bytes bs) .string)
  | r => .error (r.wrong .string)

/-- serde's `bool::deserialize`. (bitvec_helpers.rs:81) -/
def deBoolE (d : Der) : Except DeErr Bool :=
  match d.visit .bool with
  | .bool b => .ok b
  | r => .error (r.wrong .bool)

/-- serde's `Deserialize` for the integer type `t`: 128 bit numbers are of an invalid type for other types (`visit_u128` and `visit_i128` are the default methods), numbers that do not fit are
invalid values. (behind deserialize.rs:148 and lib.rs:107) -/
def deNumE (t : NumTy) (d : Der) : Except DeErr Num :=
  match d.visit (.num t) with
  | .num n =>
    if n.ty = t then .ok n
    else if (n.ty = .u128 ∨ n.ty = .i128) ∧ t ≠ .u128 ∧ t ≠ .i128 then .error (.invalidType (.num n) (.num t))
    else match Num.ofInt? t n.val with
      | some x => .ok x
      | none => .error (.invalidValue (.num n) (.num t))
  | r => .error (r.wrong (.num t))

/-- Reading all elements of a sequence with `f`; the first error is the result. (behind bitvec_helpers.rs:81) -/
def allOfE {A B : Type} (f : A → Except DeErr B) : List A → Except DeErr (List B)
  | [] => .ok []
  | x :: xs => match f x with
    | .error e => .error e
    | .ok y => match allOfE f xs with
      | .error e => .error e
      | .ok ys => .ok (y :: ys)

/-- serde's `Vec<T>::deserialize`. (bitvec_helpers.rs:81) -/
def deVecE {A : Type} (f : Der → Except DeErr A) (d : Der) : Except DeErr (List A) :=
  match d.visit .seq with
  | .seq _ l => allOfE f l
  | r => .error (r.wrong .seq)

mutual
/-- `impl Deserialize for Value` (deserialize.rs:40-48). -/
def deValueE : Der → Except DeErr (Value Unit)
  | .mk f => match deDefE (f .any) with
    | .ok d => .ok (.mk d ())
    | .error e => .error e
termination_by structural d => d
/-- `ValueDefVisitor` (deserialize.rs:307-380) with `MapOrBitSeqVisitor` (bitvec_helpers.rs:58-100). -/
def deDefE : Reply → Except DeErr (ValueDef Unit)
  | .bool b => .ok (.primitive (.bool b))
  | .num n => .ok (.primitive n.toPrim)
  | .char c => .ok (.primitive (.char c))
  | .str s => .ok (.primitive (.string s))
  | .bytes bs => .ok (.composite (.unnamed (byteVals bs)))
  | .unit => .ok (.composite (.unnamed []))
  | .none => .ok (.variant (.mk "None".toList (.unnamed [])))
  | .some d => match deValueE d with
    | .ok v => .ok (.variant (.mk "Some".toList (.unnamed [v])))
    | .error e => .error e
  | .newtype d => match deValueE d with
    | .ok v => .ok v.value
    | .error e => .error e
  | .seq _ l => match deValuesE l with
    | .ok vs => .ok (.composite (.unnamed vs))
    | .error e => .error e
  | .map _ [] => .ok (.composite (.named []))
  | .map closed ((k, v) :: r) => match deStringE k with
    | .error e => .error e
    | .ok key =>
      if key = bitIdent then match deVecE deBoolE v with
        | .error e => .error e
        | .ok bs => if closed ∧ r ≠ [] then .error .leftover else .ok (.bitSequence bs)
      else match deValueE v with
        | .error e => .error e
        | .ok w => match deEntriesE r with
          | .error e => .error e
          | .ok es => .ok (.composite (.named ((key, w) :: es)))
  | .enum name newtype _ => match deStringE name with
    | .error e => .error e
    | .ok n => match deCompositeE newtype with
      | .error e => .error e
      | .ok c => .ok (.variant (.mk n c))
  | .float => .error (.invalidType .float .value)
  | .self => .error (.invalidType .seq .value)
  | .error e => .error (.refused e)
/-- `impl Deserialize for Composite` (deserialize.rs:68-75). -/
def deCompositeE : Der → Except DeErr (Composite Unit)
  | .mk f => deCompE (f .any)
/-- `CompositeVisitor` (deserialize.rs:161-211). -/
def deCompE : Reply → Except DeErr (Composite Unit)
  | .bytes bs => .ok (.unnamed (byteVals bs))
  | .unit => .ok (.unnamed [])
  | .newtype d => deCompositeE d
  | .seq _ l => match deValuesE l with
    | .ok vs => .ok (.unnamed vs)
    | .error e => .error e
  | .map _ l => match deEntriesE l with
    | .ok es => .ok (.named es)
    | .error e => .error e
  | .bool b => .error (.invalidType (.bool b) .composite)
  | .num n => .error (.invalidType (.num n) .composite)
  | .float => .error (.invalidType .float .composite)
  | .char c => .error (.invalidType (.str [c]) .composite)
  | .str s => .error (.invalidType (.str s) .composite)
  | .none => .error (.invalidType .option .composite)
  | .some _ => .error (.invalidType .option .composite)
  | .self => .error (.invalidType .seq .composite)
  | .enum _ _ _ => .error (.invalidType .enum .composite)
  | .error e => .error (.refused e)
/-- `seq.next_element()` until the end (deserialize.rs:195-197). -/
def deValuesE : List Der → Except DeErr (List (Value Unit))
  | [] => .ok []
  | d :: r => match deValueE d with
    | .error e => .error e
    | .ok v => match deValuesE r with
      | .error e => .error e
      | .ok vs => .ok (v :: vs)
/-- `map.next_entry()` until the end (deserialize.rs:206-208, bitvec_helpers.rs:94-97). -/
def deEntriesE : List (Der × Der) → Except DeErr (List (Str × Value Unit))
  | [] => .ok []
  | (k, d) :: r => match deStringE k with
    | .error e => .error e
    | .ok key => match deValueE d with
      | .error e => .error e
      | .ok v => match deEntriesE r with
        | .error e => .error e
        | .ok es => .ok ((key, v) :: es)
end

/-- The loop of `VariantVisitor::visit_map` (deserialize.rs:267-277). -/
def variantLoopE : List (Der × Der) → Option Str → Option (Composite Unit) → Except DeErr (Option Str × Option (Composite Unit))
  | [], name, values => .ok (name, values)
  | (k, d) :: r, name, values => match deStringE k with
    | .error e => .error e
    | .ok key =>
      if key = "name".toList then match deStringE d with
        | .error e => .error e
        | .ok n => variantLoopE r (some n) values
      else if key = "values".toList then match deCompositeE d with
        | .error e => .error e
        | .ok c => variantLoopE r name (some c)
      else .error (.unknownField key)

/-- `impl Deserialize for Variant` (deserialize.rs:77-84) with `VariantVisitor` (deserialize.rs:215-287). -/
def deVariantE (d : Der) : Except DeErr (Variant Unit) :=
  match d.visit .any with
  | .enum name newtype _ => match deStringE name with
    | .error e => .error e
    | .ok n => match deCompositeE newtype with
      | .error e => .error e
      | .ok c => .ok (.mk n c)
  | .some d => match deValueE d with
    | .ok v => .ok (.mk "Some".toList (.unnamed [v]))
    | .error e => .error e
  | .none => .ok (.mk "None".toList (.unnamed []))
  | .map _ l => match variantLoopE l none none with
    | .error e => .error e
    | .ok (some n, some c) => .ok (.mk n c)
    | .ok _ => .error .noNameAndValues
  | r => .error (r.wrong .variant)

/-- `impl Deserialize for Primitive` (deserialize.rs:59-66) with `PrimitiveVisitor` (deserialize.rs:99-157). -/
def dePrimitiveE (d : Der) : Except DeErr Primitive :=
  match d.visit .any with
  | .bool b => .ok (.bool b)
  | .num n => .ok n.toPrim
  | .char c => .ok (.char c)
  | .str s => .ok (.string s)
  | .bytes bs => match bytes32? bs with
    | some p => .ok p
    | none => .error (.invalidType (.bytes bs) .primitive)
  | .seq _ l => match allOfE (deNumE .u8) l with
    | .error e => .error e
    | .ok ns => match bytes32? (ns.map Num.toU8) with
      | some p => .ok p
      | none => .error (.invalidLength ns.length .bytes32)
  | r => .error (r.wrong .primitive)

/-! ### Derived types -/

mutual
/-- serde's `IgnoredAny::deserialize`. (behind lib.rs:107) -/
def deIgnoredE : Der → Except DeErr Unit
  | .mk f => deIgnoredRE (f .ignored)
termination_by structural d => d
/-- The visitor of `IgnoredAny`. (behind lib.rs:107) -/
def deIgnoredRE : Reply → Except DeErr Unit
  | .some d => deIgnoredE d
  | .newtype d => deIgnoredE d
  | .seq _ l => deIgnoredLE l
  | .map _ l => deIgnoredME l
  | .enum n d _ => match deIgnoredE n with
    | .error e => .error e
    | .ok _ => deIgnoredE d
  | .self => .ok ()
  | .error e => .error (.refused e)
  | _ => .ok ()
/-- All elements. (behind lib.rs:107) -/
def deIgnoredLE : List Der → Except DeErr Unit
  | [] => .ok ()
  | d :: r => match deIgnoredE d with
    | .error e => .error e
    | .ok _ => deIgnoredLE r
/-- All entries. (behind lib.rs:107) -/
def deIgnoredME : List (Der × Der) → Except DeErr Unit
  | [] => .ok ()
  | (k, v) :: r => match deIgnoredE k with
    | .error e => .error e
    | .ok _ => match deIgnoredE v with
      | .error e => .error e
      | .ok _ => deIgnoredME r
end

/-- The derived `__Field` identifier. (behind lib.rs:107) -/
def deIdentE (d : Der) : Except DeErr Str :=
  match d.visit .ident with
  | .str s => .ok s
  | .char c => .ok [c]
  | r => .error (r.wrong .ident)

/-- serde's `char::deserialize`. (behind lib.rs:107) -/
def deCharE (d : Der) : Except DeErr Char :=
  match d.visit .char with
  | .char c => .ok c
  | .str [c] => .ok c
  | .str s => .error (.invalidValue (.str s) .char)
  | r => .error (r.wrong .char)

/-- serde_bytes' `ByteBuf::deserialize`. (behind lib.rs:107) -/
def deBytesE (d : Der) : Except DeErr (List UInt8) :=
  match d.visit .bytes with
  | .bytes bs => .ok bs
  | .seq _ l => match allOfE (deNumE .u8) l with
    | .error e => .error e
    | .ok ns => .ok (ns.map Num.toU8)
  | .str s => .ok (utf8Bytes s)
  | .char c => .ok (utf8Bytes [c])
  | r => .error (r.wrong .bytes)

/-- Reading the entries of a map one by one. (behind lib.rs:107) -/
def deMapE (key : Der → Except DeErr Str) (f : Der → Except DeErr Dat) : List (Der × Der) → List (Str × Dat) → Except DeErr (List (Str × Dat))
  | [], acc => .ok acc
  | (k, v) :: r, acc => match key k with
    | .error e => .error e
    | .ok s => match f v with
      | .error e => .error e
      | .ok d => deMapE key f r (insertMap acc s d)

/-- The loop of a derived `visit_map`: entry by entry, the key is read; if it is a field (`field` is not `none`) that was not read before then its value is read, and other entries are ignored.
(behind lib.rs:107) -/
def structLoop (field : Str → Der → Option (Except DeErr Dat)) : List (Der × Der) → List (Str × Dat) → Except DeErr (List (Str × Dat))
  | [], acc => .ok acc
  | (k, v) :: r, acc => match deIdentE k with
    | .error e => .error e
    | .ok n => match field n v with
      | none => match deIgnoredE v with
        | .error e => .error e
        | .ok _ => structLoop field r acc
      | some x =>
        if n ∈ acc.map (fun p => p.1) then .error (.duplicateField n)
        else match x with
          | .error e => .error e
          | .ok d => structLoop field r (acc ++ [(n, d)])

/-- The value that was read for a field. (behind lib.rs:107) -/
def got (n : Str) (acc : List (Str × Dat)) : Option Dat := (acc.find? (fun p => decide (p.1 = n))).map (fun p => p.2)

/-- After the loop: fields that were not there. (behind lib.rs:107) -/
def structEnd : List (Str × Ty) → List (Str × Dat) → Except DeErr (List Dat)
  | [], _ => .ok []
  | (n, t) :: fs, acc => match (match got n acc with | some x => some x | none => t.missing) with
    | none => .error (.missingField n)
    | some x => match structEnd fs acc with
      | .error e => .error e
      | .ok xs => .ok (x :: xs)

/-- The visitor of a struct. (behind lib.rs:107) -/
def structOfE (inOrder : Bool → List Der → Except DeErr (List Dat)) (field : Str → Der → Option (Except DeErr Dat))
    (finish : List (Str × Dat) → Except DeErr (List Dat)) : Reply → Except DeErr (List Dat)
  | .seq closed l => inOrder closed l
  | .map _ l => match structLoop field l [] with
    | .error e => .error e
    | .ok acc => finish acc
  | r => .error (r.wrong .struct)

mutual
/-- `T::deserialize` for such a type. (behind lib.rs:107) -/
def Ty.deE : Ty → Der → Except DeErr Dat
  | .bool, d => (deBoolE d).map .bool
  | .num t, d => (deNumE t d).map .num
  | .char, d => (deCharE d).map .char
  | .string, d => (deStringE d).map .str
  | .bytes, d => (deBytesE d).map .bytes
  | .unit, d => match d.visit .unit with
    | .unit => .ok .unit
    | r => .error (r.wrong .unit)
  | .unitStruct, d => match d.visit .unitStruct with
    | .unit => .ok .unit
    | r => .error (r.wrong .unit)
  | .option t, d => match d.visit .option with
    | .none => .ok .none
    | .unit => .ok .none
    | .some d => (t.deE d).map .some
    | r => .error (r.wrong .option)
  | .newtype t, d => match d.visit .newtypeStruct with
    | .newtype d => (t.deE d).map (fun x => .list [x])
    | .seq _ [] => .error (.invalidLength 0 .newtype)
    | .seq closed (d :: r) => match t.deE d with
      | .error e => .error e
      | .ok x => if closed ∧ r ≠ [] then .error .leftover else .ok (.list [x])
    | r => .error (r.wrong .newtype)
  | .seq t, d => match d.visit .seq with
    | .seq _ l => (allOfE t.deE l).map .list
    | r => .error (r.wrong .seq)
  | .tuple ts, d => match d.visit (.tuple ts.length) with
    | .seq closed l => (Ty.deListE ts 0 closed l).map .list
    | r => .error (r.wrong .tuple)
  | .tupleStruct ts, d => match d.visit (.tupleStruct ts.length) with
    | .seq closed l => (Ty.deListE ts 0 closed l).map .list
    | r => .error (r.wrong .tuple)
  | .struct fs, d => (structOfE (Ty.deFieldListE fs 0) (Ty.deFieldE fs) (structEnd fs) (d.visit .struct)).map .list
  | .enum vs, d => match d.visit .enum with
    | .enum n c access => match deIdentE n with
      | .error e => .error e
      | .ok name => (Ty.deVariantE vs name c access).map (.enum name)
    | r => .error (r.wrong .enum)
  | .map chars t, d => match d.visit .map with
    | .map _ l => (deMapE (if chars then fun k => (deCharE k).map (fun c => [c]) else deStringE) t.deE l []).map .map
    | r => .error (r.wrong .map)
  | .value, d => (deValueE d).map .value
termination_by structural t => t
/-- `visit_seq` for tuples: `i` elements have been read. (behind lib.rs:107) -/
def Ty.deListE : List Ty → Nat → Bool → List Der → Except DeErr (List Dat)
  | [], _, closed, l => if closed ∧ l ≠ [] then .error .leftover else .ok []
  | _ :: _, i, _, [] => .error (.invalidLength i .tuple)
  | t :: ts, i, closed, d :: l => match t.deE d with
    | .error e => .error e
    | .ok x => match Ty.deListE ts (i + 1) closed l with
      | .error e => .error e
      | .ok xs => .ok (x :: xs)
/-- `visit_seq` of a struct. (behind lib.rs:107) -/
def Ty.deFieldListE : List (Str × Ty) → Nat → Bool → List Der → Except DeErr (List Dat)
  | [], _, closed, l => if closed ∧ l ≠ [] then .error .leftover else .ok []
  | _ :: _, i, _, [] => .error (.invalidLength i .struct)
  | (_, t) :: ts, i, closed, d :: l => match t.deE d with
    | .error e => .error e
    | .ok x => match Ty.deFieldListE ts (i + 1) closed l with
      | .error e => .error e
      | .ok xs => .ok (x :: xs)
/-- Reading the field `n` of a struct; `none` if there is no such field. (behind lib.rs:107) -/
def Ty.deFieldE : List (Str × Ty) → Str → Der → Option (Except DeErr Dat)
  | [], _, _ => none
  | (n', t) :: ts, n, d => if n' = n then some (t.deE d) else Ty.deFieldE ts n d
/-- The variant of the given name. (behind lib.rs:107) -/
def Ty.deVariantE : List (Str × VTy) → Str → Der → (VHint → Reply) → Except DeErr (List Dat)
  | [], name, _, _ => .error (.unknownVariant name)
  | (n, v) :: vs, name, c, access => if n = name then v.deE c access else Ty.deVariantE vs name c access
/-- The contents of a variant. (behind lib.rs:107) -/
def VTy.deE : VTy → Der → (VHint → Reply) → Except DeErr (List Dat)
  | .unit, _, access => match access .unit with
    | .unit => .ok []
    | r => .error (r.wrong .unit)
  | .newtype t, c, _ => (t.deE c).map (fun x => [x])
  | .tuple ts, _, access => match access (.tuple ts.length) with
    | .seq closed l => Ty.deListE ts 0 closed l
    | r => .error (r.wrong .tuple)
  | .struct fs, _, access => structOfE (Ty.deFieldListE fs 0) (Ty.deFieldE fs) (structEnd fs) (access .struct)
end

end SV
