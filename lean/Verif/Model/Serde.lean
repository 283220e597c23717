import Verif.Model.Value
/-
Model of the serializing half of /repo/src/serde_impls: serialize.rs (`Serialize` for values), serializer.rs
(`ValueSerializer`), `serialize_bitvec` of bitvec_helpers.rs and `to_value` of lib.rs.

A `Serialize` implementation is modelled by the tree of calls that it makes on the `Serializer` that it is given (`Ser`).
Not modelled here: implementations that break serde's protocol (`serialize_value` without `serialize_key`, which panics at
serializer.rs:370; they are in `Model/SerCalls.lean`), and the length hints and type names (which `ValueSerializer` ignores: `_len`, `_name`, `_variant_index`).
-/
namespace SV

/-- The integer types of the serde data model. (serializer.rs:81-90) -/
inductive NumTy where
  | u8 | u16 | u32 | u64 | u128
  | i8 | i16 | i32 | i64 | i128
  deriving DecidableEq

/-- `MIN` of an integer type. (serialize.rs:79) -/
def NumTy.lo : NumTy → Int
  | .u8 | .u16 | .u32 | .u64 | .u128 => 0
  | .i8 => -(2 ^ 7)
  | .i16 => -(2 ^ 15)
  | .i32 => -(2 ^ 31)
  | .i64 => -(2 ^ 63)
  | .i128 => -(2 ^ 127)

/-- `MAX` of an integer type, plus one. (serialize.rs:79) -/
def NumTy.hi : NumTy → Int
  | .u8 => 2 ^ 8
  | .u16 => 2 ^ 16
  | .u32 => 2 ^ 32
  | .u64 => 2 ^ 64
  | .u128 => 2 ^ 128
  | .i8 => 2 ^ 7
  | .i16 => 2 ^ 15
  | .i32 => 2 ^ 31
  | .i64 => 2 ^ 63
  | .i128 => 2 ^ 127

/-- A number of one of the integer types. (serializer.rs:81-90) -/
structure Num where
  ty : NumTy
  val : Int
  ge : ty.lo ≤ val
  lt : val < ty.hi
  deriving DecidableEq

/-- `TryFrom`/`TryInto` between integer types, of the core library. (serialize.rs:79, deserializer.rs:731, 735) -/
def Num.ofInt? (t : NumTy) (n : Int) : Option Num :=
  if h : t.lo ≤ n ∧ n < t.hi then some ⟨t, n, h.1, h.2⟩ else none

/-- `u128::from`, used as `v.into()` (serializer.rs:63). -/
def U128.ofNum (n : Num) : U128 :=
  ⟨n.val.toNat, by
    have h2 := n.lt
    have : n.ty.hi ≤ 2 ^ 128 := by cases n.ty <;> decide
    omega⟩

/-- `i128::from`, used as `v.into()` (serializer.rs:63). -/
def I128.ofNum (n : Num) (h : n.ty.lo ≠ 0) : I128 :=
  ⟨n.val, by
    have h1 := n.ge
    have : -(2 ^ 127) ≤ n.ty.lo := by cases n.ty <;> decide
    omega, by
    have h1 := n.lt
    have : n.ty.hi ≤ 2 ^ 127 := by revert h; cases n.ty <;> decide
    omega⟩

/-- The table of `serialize_prim!` (serializer.rs:81-90) and the same table of `visit_prim!` (deserialize.rs:107-116): signed types to
`I128`, unsigned types to `U128`. -/
def Num.toPrim (n : Num) : Primitive :=
  if h : n.ty.lo = 0 then .u128 (.ofNum n) else .i128 (.ofNum n h)

/-- The calls that a `Serialize` implementation makes on its `Serializer` (serde's data model). `fail` is an implementation that returns an error
of its own (`S::Error::custom`), with its text. (serializer.rs:68-210) -/
inductive Ser where
  | bool (b : Bool)
  | num (n : Num)
  | f32
  | f64
  | char (c : Char)
  | str (s : Str)
  | bytes (bs : List UInt8)
  | none
  | some (x : Ser)
  | unit
  | unitStruct
  | unitVariant (variant : Str)
  | newtypeStruct (x : Ser)
  | newtypeVariant (variant : Str) (x : Ser)
  | seq (xs : List Ser)
  | tuple (xs : List Ser)
  | tupleStruct (xs : List Ser)
  | tupleVariant (variant : Str) (xs : List Ser)
  | map (es : List (Ser × Ser))
  | struct (fs : List (Str × Ser))
  | structVariant (variant : Str) (fs : List (Str × Ser))
  | fail (msg : Str)

/-- `enum SerializerError` (serializer.rs:33-49). -/
inductive SerErr where
  | custom (msg : Str)
  | floats
  | mapKey
  deriving DecidableEq

/-- `Display for SerializerError` (serializer.rs:33-49, by `thiserror`). -/
def SerErr.display : SerErr → Str
  | .custom msg => "Custom error: ".toList ++ msg                                                                          -- 36
  | .floats => "Floats do not have a SCALE compatible representation, and so cannot be serialized to Values".toList        -- 40-42
  | .mapKey => "Map keys must be strings or string-like".toList                                                            -- 47

/-- `SerializerError::custom` of `serde::ser::Error` (serializer.rs:51-58). -/
def SerErr.ofCustom (msg : Str) : SerErr := .custom msg

/-- The `match inner.value` of `serialize_key` (serializer.rs:357-361). -/
def keyOf (v : Value Unit) : Except SerErr Str :=
  match v.value with
  | .primitive (.string s) => .ok s
  | .primitive (.char c) => .ok [c]
  | _ => .error .mapKey

mutual
/-- `impl Serializer for ValueSerializer` (serializer.rs:68-210), with `UnnamedCompositeSerializer` (serializer.rs:214-244) and
`NamedCompositeSerializer` (serializer.rs:311-343): what `x.serialize(ValueSerializer)` returns. `to_value` (lib.rs:149-151) is this function. -/
def Ser.toValue : Ser → Except SerErr (Value Unit)
  | .bool b => .ok (.bool b)
  | .num n => .ok (.primitive n.toPrim)
  | .f32 => .error .floats
  | .f64 => .error .floats
  | .char c => .ok (.char c)
  | .str s => .ok (.string s)
  | .bytes bs => .ok (.unnamedComposite (bs.map (fun b => .u128 (.ofU8 b))))
  | .none => .ok (.variant "None".toList (.unnamed []))
  | .some x => do
    let inner ← x.toValue
    .ok (.variant "Some".toList (.unnamed [inner]))
  | .unit => .ok (.unnamedComposite [])
  | .unitStruct => .ok (.unnamedComposite [])
  | .unitVariant name => .ok (.variant name (.unnamed []))
  | .newtypeStruct x => do
    let inner ← x.toValue
    .ok (.unnamedComposite [inner])
  | .newtypeVariant name x => do
    let inner ← x.toValue
    .ok (.variant name (.unnamed [inner]))
  | .seq xs => do
    let vs ← toValues xs
    .ok (.unnamedComposite vs)
  | .tuple xs => do
    let vs ← toValues xs
    .ok (.unnamedComposite vs)
  | .tupleStruct xs => do
    let vs ← toValues xs
    .ok (.unnamedComposite vs)
  | .tupleVariant name xs => do
    let vs ← toValues xs
    .ok (.variant name (.unnamed vs))
  | .map es => do
    let fs ← toEntries es
    .ok (.namedComposite fs)
  | .struct fs => do
    let fs ← toFields fs
    .ok (.namedComposite fs)
  | .structVariant name fs => do
    let fs ← toFields fs
    .ok (.variant name (.named fs))
  | .fail msg => .error (.ofCustom msg)
/-- Successive `serialize_element` calls (serializer.rs:229-236). -/
def toValues : List Ser → Except SerErr (List (Value Unit))
  | [] => .ok []
  | x :: xs => do
    let v ← x.toValue
    let vs ← toValues xs
    .ok (v :: vs)
/-- Successive `serialize_key`, `serialize_value` calls (serializer.rs:345-372). -/
def toEntries : List (Ser × Ser) → Except SerErr (List (Str × Value Unit))
  | [] => .ok []
  | (k, x) :: es => do
    let inner ← k.toValue
    let key ← keyOf inner
    let v ← x.toValue
    let r ← toEntries es
    .ok ((key, v) :: r)
/-- Successive `serialize_field` calls (serializer.rs:327-335). -/
def toFields : List (Str × Ser) → Except SerErr (List (Str × Value Unit))
  | [] => .ok []
  | (k, x) :: es => do
    let v ← x.toValue
    let r ← toFields es
    .ok ((k, v) :: r)
end

/-! ### `Serialize` for values -/

/-- `BITVEC_SERDE_IDENT` (bitvec_helpers.rs:36). -/
def bitIdent : Str := "__bitvec__values__".toList

/-- `serialize_as_first_ok_type!` (serialize.rs:77-88): the first type of the list that holds the number, else the type of the number itself. -/
def firstOk (dflt : Num) : List NumTy → Num
  | [] => dflt
  | t :: ts => match Num.ofInt? t dflt.val with
    | some x => x
    | none => firstOk dflt ts

/-- A `u8` as a number. (serialize.rs:106, 113) -/
def Num.ofU8 (x : UInt8) : Num := ⟨.u8, x.toNat, by simp [NumTy.lo], by have := x.toNat_lt; simp only [NumTy.hi]; omega⟩

/-- `impl Serialize for Primitive` (serialize.rs:90-116). `[u8; 32]` serializes as a tuple of 32 `u8`s (serde's array impl). -/
def Primitive.serialize : Primitive → Ser
  | .bool b => .bool b
  | .char c => .char c
  | .string s => .str s
  | .u128 n => .num (firstOk ⟨.u128, n.val, by simp [NumTy.lo], by have := n.lt; simp only [NumTy.hi]; omega⟩ [.u8, .u16, .u32, .u64, .u128])
  | .i128 n => .num (firstOk ⟨.i128, n.val, by simp only [NumTy.lo]; exact n.ge, by simp only [NumTy.hi]; exact n.lt⟩ [.i8, .i16, .i32, .i64, .i128])
  | .u256 b => .tuple (b.bytes.map (fun x => .num (.ofU8 x)))
  | .i256 b => .tuple (b.bytes.map (fun x => .num (.ofU8 x)))

/-- `serialize_bitvec` (bitvec_helpers.rs:39-46), with `Serialize for Bits` of scale-bits (a sequence of bools). -/
def serializeBits (bs : List Bool) : Ser :=
  .map [(.str bitIdent, .seq (bs.map .bool))]

mutual
/-- `impl Serialize for Value` (serialize.rs:30-37). -/
def Value.serialize {T : Type} : Value T → Ser
  | .mk d _ => d.serialize
/-- `impl Serialize for ValueDef` (serialize.rs:39-51). -/
def ValueDef.serialize {T : Type} : ValueDef T → Ser
  | .composite c => c.serialize
  | .variant v => v.serialize
  | .primitive p => p.serialize
  | .bitSequence b => serializeBits b
/-- `impl Serialize for Variant` (serialize.rs:118-133). -/
def Variant.serialize {T : Type} : Variant T → Ser
  | .mk n c => .map [(.str "name".toList, .str n), (.str "values".toList, c.serialize)]
/-- `impl Serialize for Composite` (serialize.rs:53-75). -/
def Composite.serialize {T : Type} : Composite T → Ser
  | .named fs => .map (serializeFields fs)
  | .unnamed vs => .seq (serializeVals vs)
/-- The loop of serialize.rs:61-63. -/
def serializeFields {T : Type} : List (Str × Value T) → List (Ser × Ser)
  | [] => []
  | (k, v) :: r => (.str k, v.serialize) :: serializeFields r
/-- The loop of serialize.rs:68-70. -/
def serializeVals {T : Type} : List (Value T) → List Ser
  | [] => []
  | v :: r => v.serialize :: serializeVals r
end

end SV
