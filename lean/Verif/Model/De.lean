import Verif.Model.Serde
import Verif.Model.Codec
/-
Model of the deserializing half of /repo/src/serde_impls: deserializer.rs (values as `Deserializer`s), deserialize.rs (`Deserialize` for
values), bitvec_helpers.rs, and `from_value` of lib.rs.

A `Deserializer` (`Der`) is modelled by its reply to each `deserialize_*` method (the method is the "hint"): which method of the visitor it calls,
with what (`Reply`), or the error that it returns itself (`Refusal`). The functions here that read from a `Deserializer` do not tell errors apart; those of
`Model/DeErr.lean` do. The arguments `name`, `fields` and
`variants` of the `deserialize_*` methods are left out: only error texts use them. `deserialize_bytes`/`_byte_buf`, `_str`/`_string`, `_f32`/`_f64` are one hint each: the code
treats the members of each pair alike (deserializer.rs:241-245, 331-351, 539-544), and so do serde's visitors.
-/
namespace SV

/-- The `deserialize_*` methods of serde's `Deserializer`. (deserializer.rs:76-169) -/
inductive Hint where
  | any | bool | num (t : NumTy) | float | char | str | bytes | option | unit | unitStruct | newtypeStruct | seq
  | tuple (n : Nat) | tupleStruct (n : Nat) | map | struct | enum | ident | ignored

/-- The methods of serde's `VariantAccess` other than `newtype_variant_seed`. (deserializer.rs:562-593) -/
inductive VHint where
  | unit | tuple (n : Nat) | struct

/-- The errors that the deserializers of deserializer.rs return themselves; `foreign` is for those of other deserializers. The texts are in `Refusal.display` of
`Model/DeErr.lean`. (deserializer.rs:257-370, 448-464, 491-493, 523-534) -/
inductive Refusal where
  | bitsNewtype | bitsTuple | bitsTupleStruct | bitsUnit | bitsUnitStruct | bitsEnum | bitsBytes | bitsSeq | bitsMap
  | tupleLength (got want : Nat)
  | nonEmptyUnit
  | byteRange
  | byteNonNumeric
  | foreign (msg : Str)

mutual
/-- A `Deserializer`: what it does when one of its methods is called. (deserializer.rs:76-169) -/
inductive Der where
  | mk (ask : Hint → Reply)
/-- What a `Deserializer` does with the visitor: it calls one of its `visit_*` methods, or returns an error.

* `seq closed elems`: `visit_seq` with a `SeqAccess` that gives `elems`; `closed` if the deserializer returns an error should the visitor leave
  some of them unread (`SeqDeserializer` used as a `Deserializer` does, used as a `SeqAccess` does not).
* `map closed entries`: `visit_map`, likewise.
* `self`: `visit_seq` with this same deserializer as the only element: `visit_seq(SeqDeserializer::new(Some(self).into_iter()))`.
* `enum name newtype access`: `visit_enum`; `newtype` is what `newtype_variant_seed` gives to the seed, `access` is for the other
  methods of `VariantAccess`. (what the functions of deserializer.rs:174-794 do with `visitor`) -/
inductive Reply where
  | bool (b : Bool)
  | num (n : Num)
  | float
  | char (c : Char)
  | str (s : Str)
  | bytes (bs : List UInt8)
  | unit
  | none
  | some (d : Der)
  | newtype (d : Der)
  | seq (closed : Bool) (elems : List Der)
  | map (closed : Bool) (entries : List (Der × Der))
  | self
  | enum (name : Der) (newtype : Der) (access : VHint → Reply)
  | error (e : Refusal)
end

/-- Calling a method of a deserializer. (as in lib.rs:107) -/
def Der.ask : Der → Hint → Reply
  | .mk f => f

/-- Calling a method of a deserializer, with `self` spelled out. (as in lib.rs:107) -/
def Der.visit (d : Der) (h : Hint) : Reply :=
  match d.ask h with
  | .self => .seq false [d]
  | r => r

/-! ### Values as deserializers -/

/-- serde's `StringDeserializer` and `StrDeserializer`, used for field and variant names (deserializer.rs:718, 419; bitvec_helpers.rs:51): all methods
visit the string. Simplification: `deserialize_enum`, which no `Deserialize` implementation of this model calls on a name, is an error here. -/
def strDer (s : Str) : Der := .mk fun h => match h with
  | .enum => .error (.foreign [])
  | _ => .str s

/-- serde's `BoolDeserializer` (behind bitvec_helpers.rs:50-51). -/
def boolDer (b : Bool) : Der := .mk fun _ => .bool b

/-- serde's `SeqDeserializer` over a `Vec<bool>`, as a `Deserializer` (behind bitvec_helpers.rs:50-51). -/
def boolsDer (bs : List Bool) : Der := .mk fun _ => .seq true (bs.map boolDer)

/-- `bitvec_helpers::map_access` (bitvec_helpers.rs:49-52). -/
def bitsReply (bs : List Bool) : Reply := .map false [(strDer bitIdent, boolsDer bs)]

/-- `Primitive::deserialize_any` (deserializer.rs:748-761). -/
def Primitive.any : Primitive → Reply
  | .bool b => .bool b
  | .char c => .char c
  | .string s => .str s
  | .u128 n => .num ⟨.u128, n.val, by simp [NumTy.lo], by have := n.lt; simp only [NumTy.hi]; omega⟩
  | .u256 b => .bytes b.bytes
  | .i128 n => .num ⟨.i128, n.val, by simp only [NumTy.lo]; exact n.ge, by simp only [NumTy.hi]; exact n.lt⟩
  | .i256 b => .bytes b.bytes

/-- `deserialize_number!` (deserializer.rs:724-743). -/
def Primitive.askNum (p : Primitive) (t : NumTy) : Reply :=
  match p with
  | .u128 n => match Num.ofInt? t n.val with
    | some x => .num x
    | none => p.any
  | .i128 n => match Num.ofInt? t n.val with
    | some x => .num x
    | none => p.any
  | _ => p.any

/-- `impl Deserializer for Primitive` (deserializer.rs:745-794). -/
def Primitive.ask (p : Primitive) : Hint → Reply
  | .num t => p.askNum t
  | .newtypeStruct => .self
  | _ => p.any

variable {T : Type}

/-- The closure of deserializer.rs:523-534. -/
def byteOf (v : Value T) : Except Refusal UInt8 :=
  match v.value with
  | .primitive (.u128 n) => if n.val < 256 then .ok (UInt8.ofNat n.val) else .error .byteRange
  | _ => .error .byteNonNumeric

/-- `.collect::<Result<Vec<u8>, _>>()` (deserializer.rs:535). -/
def bytesOf : List (Value T) → Except Refusal (List UInt8)
  | [] => .ok []
  | v :: vs => match byteOf v with
    | .error e => .error e
    | .ok b => match bytesOf vs with
      | .error e => .error e
      | .ok bs => .ok (b :: bs)

/-- `impl VariantAccess for Composite` (deserializer.rs:562-593), for a composite whose `Deserializer` methods are `ask`. `unit_variant` is
`<()>::deserialize`, that is `deserialize_unit`. -/
def accessOf (ask : Hint → Reply) : VHint → Reply
  | .unit => ask .unit
  | .tuple n => ask (.tuple n)
  | .struct => ask .any

mutual
/-- `impl Deserializer for Value` (deserializer.rs:76-169): forwards to the `ValueDef`. -/
def Value.der : Value T → Der
  | .mk d _ => .mk d.ask
termination_by structural v => v
/-- `impl Deserializer for ValueDef` (deserializer.rs:174-401). -/
def ValueDef.ask : ValueDef T → Hint → Reply
  | .composite c => fun h => match h with
    | .option | .struct | .ident | .ignored => c.ask .any
    | .newtypeStruct => .seq false [.mk c.ask]
    | h => c.ask h
  | .variant v => fun h => match h with
    | .option => v.askOption
    | .struct | .ident | .ignored => v.ask .any
    | .newtypeStruct => .seq false [.mk v.ask]
    | h => v.ask h
  | .primitive p => fun h => match h with
    | .option | .struct | .ident | .ignored => p.any
    | .newtypeStruct => .seq false [.mk p.ask]
    | h => p.ask h
  | .bitSequence b => fun h => match h with
    | .any | .num _ | .bool | .float | .char | .str | .option | .struct | .ident | .ignored => bitsReply b
    | .newtypeStruct => .error .bitsNewtype
    | .tuple _ => .error .bitsTuple
    | .tupleStruct _ => .error .bitsTupleStruct
    | .unit => .error .bitsUnit
    | .unitStruct => .error .bitsUnitStruct
    | .enum => .error .bitsEnum
    | .bytes => .error .bitsBytes
    | .seq => .error .bitsSeq
    | .map => .error .bitsMap
/-- `ValueDef::deserialize_option` for variants (deserializer.rs:375-394): special cases for `Some` and `None` with unnamed values, else
`deserialize_any`. -/
def Variant.askOption : Variant T → Reply
  | .mk name c => match c.elems? with
    | some [d] => if name = "Some".toList then .some d else .enum (strDer name) (.mk c.ask) (accessOf c.ask)
    | some [] => if name = "None".toList then .none else .enum (strDer name) (.mk c.ask) (accessOf c.ask)
    | _ => .enum (strDer name) (.mk c.ask) (accessOf c.ask)
/-- The pattern `Composite::Unnamed(vs)` of deserializer.rs:380, with `vs` as deserializers. -/
def Composite.elems? : Composite T → Option (List Der)
  | .named _ => none
  | .unnamed vs => some (valDers vs)
/-- `impl Deserializer for Variant` (deserializer.rs:595-697) and `EnumAccess for Variant` (deserializer.rs:709-722). -/
def Variant.ask : Variant T → Hint → Reply
  | .mk name c => fun h => match h with
    | .newtypeStruct => .self
    | .tuple n => c.ask (.tuple n)
    | .tupleStruct n => c.ask (.tupleStruct n)
    | .unitStruct => c.ask .unitStruct
    | .unit => c.ask .unit
    | .struct => c.ask .struct
    | .map => c.ask .map
    | .seq => c.ask .seq
    | .any | .bool | .num _ | .float | .char | .str | .bytes | .option | .enum | .ident | .ignored => .enum (strDer name) (.mk c.ask) (accessOf c.ask)
/-- `impl Deserializer for Composite` (deserializer.rs:410-551). -/
def Composite.ask : Composite T → Hint → Reply
  | .named fs => fun h => match h with
    | .seq => .seq false (fieldVals fs)
    | .tuple n => if fs.length = n then .seq false (fieldVals fs) else .error (.tupleLength fs.length n)
    | .tupleStruct n => if fs.length = n then .seq false (fieldVals fs) else .error (.tupleLength fs.length n)
    | .unit => if fs.isEmpty then .unit else .error .nonEmptyUnit
    | .unitStruct => if fs.isEmpty then .unit else .error .nonEmptyUnit
    | .newtypeStruct => .self
    | .bytes => match bytesOf (fs.map (fun p => p.2)) with
      | .ok bs => .bytes bs
      | .error e => .error e
    | .any | .bool | .num _ | .float | .char | .str | .option | .struct | .map | .enum | .ident | .ignored => .map false (fieldDers fs)
  | .unnamed vs => fun h => match h with
    | .tuple n => if vs.length = n then .seq false (valDers vs) else .error (.tupleLength vs.length n)
    | .tupleStruct n => if vs.length = n then .seq false (valDers vs) else .error (.tupleLength vs.length n)
    | .unit => if vs.isEmpty then .unit else .error .nonEmptyUnit
    | .unitStruct => if vs.isEmpty then .unit else .error .nonEmptyUnit
    | .newtypeStruct => .self
    | .bytes => match bytesOf vs with
      | .ok bs => .bytes bs
      | .error e => .error e
    | .any | .seq | .bool | .num _ | .float | .char | .str | .option | .struct | .map | .enum | .ident | .ignored => .seq false (valDers vs)
/-- `values.into_iter()` handed to `SeqDeserializer` (deserializer.rs:422, 435). -/
def valDers : List (Value T) → List Der
  | [] => []
  | v :: vs => v.der :: valDers vs
/-- `values.into_iter().map(|(_, v)| v)` handed to `SeqDeserializer` (deserializer.rs:433). -/
def fieldVals : List (Str × Value T) → List Der
  | [] => []
  | (_, v) :: fs => v.der :: fieldVals fs
/-- `values.into_iter()` handed to `MapDeserializer` (deserializer.rs:419). -/
def fieldDers : List (Str × Value T) → List (Der × Der)
  | [] => []
  | (k, v) :: fs => (strDer k, v.der) :: fieldDers fs
end

/-! ### `Deserialize` for values -/

/-- serde's `String::deserialize`: accepts strings, chars (`visit_char` forwards to `visit_str`) and UTF-8 bytes. (bitvec_helpers.rs:72, deserialize.rs:267) -/
def deString (d : Der) : Option Str :=
  match d.visit .str with
  | .str s => some s
  | .char c => some [c]
  | .bytes bs => fromUtf8 bs
  | _ => none

/-- serde's `bool::deserialize`. (bitvec_helpers.rs:81) -/
def deBool (d : Der) : Option Bool :=
  match d.visit .bool with
  | .bool b => some b
  | _ => none

/-- Which integers serde's visitor for the type `t` accepts: its own type, and other types when the number fits, except that types other than
the 128 bit ones do not accept 128 bit numbers (they do not implement `visit_u128` and `visit_i128`). (behind deserialize.rs:148, by `[u8; 32]`, and lib.rs:107) -/
def acceptNum (t : NumTy) (n : Num) : Option Num :=
  if n.ty = t then some n
  else if (n.ty = .u128 ∨ n.ty = .i128) ∧ t ≠ .u128 ∧ t ≠ .i128 then none
  else Num.ofInt? t n.val

/-- serde's `Deserialize` for the integer type `t`. (behind deserialize.rs:148 and lib.rs:107) -/
def deNum (t : NumTy) (d : Der) : Option Num :=
  match d.visit (.num t) with
  | .num n => acceptNum t n
  | _ => none

/-- Reading all elements of a sequence with `f`. (behind bitvec_helpers.rs:81) -/
def allOf {A B : Type} (f : A → Option B) : List A → Option (List B)
  | [] => some []
  | x :: xs => match f x with
    | none => none
    | some y => match allOf f xs with
      | none => none
      | some ys => some (y :: ys)

/-- serde's `Vec<T>::deserialize`. (bitvec_helpers.rs:81) -/
def deVec {A : Type} (f : Der → Option A) (d : Der) : Option (List A) :=
  match d.visit .seq with
  | .seq _ l => allOf f l
  | _ => none

/-- The values made of bytes by `CompositeVisitor::visit_bytes` (deserialize.rs:172). -/
def byteVals (bs : List UInt8) : List (Value Unit) := bs.map (fun b => .u128 (.ofU8 b))

mutual
/-- `impl Deserialize for Value` (deserialize.rs:40-48). -/
def deValue : Der → Option (Value Unit)
  | .mk f => match deDef (f .any) with
    | some d => some (.mk d ())
    | none => none
termination_by structural d => d
/-- `ValueDefVisitor` (deserialize.rs:307-380) with `MapOrBitSeqVisitor` (bitvec_helpers.rs:58-100). For `visit_newtype_struct`, `ValueDef::deserialize` is
`Value::deserialize` without the context. -/
def deDef : Reply → Option (ValueDef Unit)
  | .bool b => some (.primitive (.bool b))
  | .num n => some (.primitive n.toPrim)
  | .char c => some (.primitive (.char c))
  | .str s => some (.primitive (.string s))
  | .bytes bs => some (.composite (.unnamed (byteVals bs)))
  | .unit => some (.composite (.unnamed []))
  | .none => some (.variant (.mk "None".toList (.unnamed [])))
  | .some d => match deValue d with
    | some v => some (.variant (.mk "Some".toList (.unnamed [v])))
    | none => none
  | .newtype d => match deValue d with
    | some v => some v.value
    | none => none
  | .seq _ l => match deValues l with
    | some vs => some (.composite (.unnamed vs))
    | none => none
  | .map _ [] => some (.composite (.named []))
  | .map closed ((k, v) :: r) => match deString k with
    | none => none
    | some key =>
      if key = bitIdent then match deVec deBool v with
        | none => none
        | some bs => if closed ∧ r ≠ [] then none else some (.bitSequence bs)
      else match deValue v with
        | none => none
        | some w => match deEntries r with
          | none => none
          | some es => some (.composite (.named ((key, w) :: es)))
  | .enum name newtype _ => match deString name with
    | none => none
    | some n => match deComposite newtype with
      | none => none
      | some c => some (.variant (.mk n c))
  | .float | .self | .error _ => none
/-- `impl Deserialize for Composite` (deserialize.rs:68-75). -/
def deComposite : Der → Option (Composite Unit)
  | .mk f => deComp (f .any)
/-- `CompositeVisitor` (deserialize.rs:161-211). -/
def deComp : Reply → Option (Composite Unit)
  | .bytes bs => some (.unnamed (byteVals bs))
  | .unit => some (.unnamed [])
  | .newtype d => deComposite d
  | .seq _ l => match deValues l with
    | some vs => some (.unnamed vs)
    | none => none
  | .map _ l => match deEntries l with
    | some es => some (.named es)
    | none => none
  | .bool _ | .num _ | .float | .char _ | .str _ | .none | .some _ | .self | .enum _ _ _ | .error _ => none
/-- `seq.next_element()` until the end (deserialize.rs:195-197). -/
def deValues : List Der → Option (List (Value Unit))
  | [] => some []
  | d :: r => match deValue d with
    | none => none
    | some v => match deValues r with
      | none => none
      | some vs => some (v :: vs)
/-- `map.next_entry()` until the end (deserialize.rs:206-208, bitvec_helpers.rs:94-97). -/
def deEntries : List (Der × Der) → Option (List (Str × Value Unit))
  | [] => some []
  | (k, d) :: r => match deString k with
    | none => none
    | some key => match deValue d with
      | none => none
      | some v => match deEntries r with
        | none => none
        | some es => some ((key, v) :: es)
end

/-- The loop of `VariantVisitor::visit_map` (deserialize.rs:267-277). -/
def variantLoop : List (Der × Der) → Option Str → Option (Composite Unit) → Option (Option Str × Option (Composite Unit))
  | [], name, values => some (name, values)
  | (k, d) :: r, name, values => match deString k with
    | none => none
    | some key =>
      if key = "name".toList then match deString d with
        | none => none
        | some n => variantLoop r (some n) values
      else if key = "values".toList then match deComposite d with
        | none => none
        | some c => variantLoop r name (some c)
      else none

/-- `impl Deserialize for Variant` (deserialize.rs:77-84) with `VariantVisitor` (deserialize.rs:215-287). -/
def deVariant (d : Der) : Option (Variant Unit) :=
  match d.visit .any with
  | .enum name newtype _ => match deString name with
    | none => none
    | some n => match deComposite newtype with
      | none => none
      | some c => some (.mk n c)
  | .some d => match deValue d with
    | some v => some (.mk "Some".toList (.unnamed [v]))
    | none => none
  | .none => some (.mk "None".toList (.unnamed []))
  | .map _ l => match variantLoop l none none with
    | some (some n, some c) => some (.mk n c)
    | _ => none
  | _ => none

/-- `Vec<u8>`/`&[u8]` to `[u8; 32]` by `try_into` (deserialize.rs:137-141, 152-155). -/
def bytes32? (bs : List UInt8) : Option Primitive :=
  if h : bs.length = 32 then some (.u256 ⟨bs, h⟩) else none

/-- A number of type `u8`, as a byte. (deserialize.rs:148-155) -/
def Num.toU8 (n : Num) : UInt8 := UInt8.ofNat n.val.toNat

/-- `impl Deserialize for Primitive` (deserialize.rs:59-66) with `PrimitiveVisitor` (deserialize.rs:99-157). -/
def dePrimitive (d : Der) : Option Primitive :=
  match d.visit .any with
  | .bool b => some (.bool b)
  | .num n => some n.toPrim
  | .char c => some (.char c)
  | .str s => some (.string s)
  | .bytes bs => bytes32? bs
  | .seq _ l => match allOf (deNum .u8) l with
    | none => none
    | some ns => bytes32? (ns.map Num.toU8)
  | _ => none

end SV
