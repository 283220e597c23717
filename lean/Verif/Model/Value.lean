import Verif.Model.Basic
/-
Model of /repo/src/value_type.rs and /repo/src/at.rs.
-/
namespace SV

/-- `enum Primitive` (value_type.rs:388-403). -/
inductive Primitive where
  | bool (b : Bool)
  | char (c : Char)
  | string (s : Str)
  | u128 (n : U128)
  | i128 (n : I128)
  | u256 (b : Bytes32)
  | i256 (b : Bytes32)
  deriving DecidableEq

mutual
/-- `struct Value<T>` (value_type.rs:29-34). -/
inductive Value (T : Type) : Type where
  | mk (value : ValueDef T) (context : T)
/-- `enum ValueDef<T>` (value_type.rs:172-181). `BitSequence` (a `scale_bits::Bits`) is its list of
bits. -/
inductive ValueDef (T : Type) : Type where
  | composite (c : Composite T)
  | variant (v : Variant T)
  | bitSequence (b : List Bool)
  | primitive (p : Primitive)
/-- `struct Variant<T>` (value_type.rs:340-345). -/
inductive Variant (T : Type) : Type where
  | mk (name : Str) (values : Composite T)
/-- `enum Composite<T>` (value_type.rs:214-219). -/
inductive Composite (T : Type) : Type where
  | named (fs : List (Str × Value T))
  | unnamed (vs : List (Value T))
end

variable {T U S : Type}

/-- Field `value` of `Value` (value_type.rs:31). -/
def Value.value : Value T → ValueDef T
  | .mk v _ => v

/-- Field `context` of `Value` (value_type.rs:33). -/
def Value.context : Value T → T
  | .mk _ c => c

/-- Field `name` of `Variant` (value_type.rs:342). -/
def Variant.name : Variant T → Str
  | .mk n _ => n

/-- Field `values` of `Variant` (value_type.rs:344). -/
def Variant.values : Variant T → Composite T
  | .mk _ c => c

/-- `Composite::len` (value_type.rs:233-238). -/
def Composite.len : Composite T → Nat
  | .named fs => fs.length
  | .unnamed vs => vs.length

/-- `Composite::is_empty` (value_type.rs:241-246). -/
def Composite.isEmpty : Composite T → Bool
  | .named fs => fs.isEmpty
  | .unnamed vs => vs.isEmpty

/-- `Composite::values` / `Composite::into_values` (value_type.rs:249-262): the iterator as the list
of items it yields. -/
def Composite.vals : Composite T → List (Value T)
  | .named fs => fs.map (fun p => p.2)
  | .unnamed vs => vs

/-- `Composite::named` (value_type.rs:224-226). -/
def Composite.mkNamed (vals : List (Str × Value T)) : Composite T :=
  .named (vals.map (fun p => (p.1, p.2)))

/-- `Composite::unnamed` (value_type.rs:229-231). -/
def Composite.mkUnnamed (vals : List (Value T)) : Composite T := .unnamed vals

/-! ### Contexts -/

mutual
/-- `Value::map_context` (value_type.rs:127-132). An `FnMut` closure is a transition function
`f` on its captured state; `f` runs on the own context first (struct field expressions are evaluated
in the order written, `context` is first), and then the updated closure is moved into the children. -/
def Value.mapContextS (f : S → T → U × S) : Value T → S → Value U
  | .mk v c, s => .mk (v.mapContextS f (f s c).2) (f s c).1
/-- `ValueDef::map_context` (value_type.rs:185-195). -/
def ValueDef.mapContextS (f : S → T → U × S) : ValueDef T → S → ValueDef U
  | .composite c, s => .composite (c.mapContextS f s)
  | .variant v, s => .variant (v.mapContextS f s)
  | .bitSequence b, _ => .bitSequence b
  | .primitive p, _ => .primitive p
/-- `Variant::map_context` (value_type.rs:366-371). -/
def Variant.mapContextS (f : S → T → U × S) : Variant T → S → Variant U
  | .mk n c, s => .mk n (c.mapContextS f s)
/-- `Composite::map_context` (value_type.rs:265-284): the closure is cloned for each child, so each
child starts from the same closure state. -/
def Composite.mapContextS (f : S → T → U × S) : Composite T → S → Composite U
  | .named fs, s => .named (mapFieldsS f fs s)
  | .unnamed vs, s => .unnamed (mapValsS f vs s)
/-- The `.map(move |(k, v)| (k, v.map_context(f.clone())))` of value_type.rs:275-276. -/
def mapFieldsS (f : S → T → U × S) : List (Str × Value T) → S → List (Str × Value U)
  | [], _ => []
  | (k, v) :: r, s => (k, v.mapContextS f s) :: mapFieldsS f r s
/-- The `.map(move |v| v.map_context(f.clone()))` of value_type.rs:280. -/
def mapValsS (f : S → T → U × S) : List (Value T) → S → List (Value U)
  | [], _ => []
  | v :: r, s => v.mapContextS f s :: mapValsS f r s
end

/-- `Value::map_context` (value_type.rs:127-132) with a closure without mutable state. -/
def Value.mapContext (f : T → U) (v : Value T) : Value U :=
  v.mapContextS (fun (s : Unit) t => (f t, s)) ()

/-- `Value::remove_context` (value_type.rs:123-125). -/
def Value.removeContext (v : Value T) : Value Unit := v.mapContext (fun _ => ())

/-! ### Constructors (value_type.rs:36-121) -/

/-- `Value::without_context` (value_type.rs:112-114). -/
def Value.withoutContext (v : ValueDef Unit) : Value Unit := .mk v ()
/-- `Value::with_context` (value_type.rs:119-121). -/
def Value.withContext (v : ValueDef T) (c : T) : Value T := .mk v c
/-- `Value::named_composite` (value_type.rs:39-45). -/
def Value.namedComposite (vals : List (Str × Value Unit)) : Value Unit :=
  .mk (.composite (.mkNamed vals)) ()
/-- `Value::unnamed_composite` (value_type.rs:48-53). -/
def Value.unnamedComposite (vals : List (Value Unit)) : Value Unit :=
  .mk (.composite (.mkUnnamed vals)) ()
/-- `Value::variant` (value_type.rs:55-57). -/
def Value.variant (name : Str) (values : Composite Unit) : Value Unit :=
  .mk (.variant (.mk name values)) ()
/-- `Variant::named_fields` (value_type.rs:349-356). -/
def Variant.namedFields (name : Str) (fs : List (Str × Value T)) : Variant T :=
  .mk name (.mkNamed fs)
/-- `Variant::unnamed_fields` (value_type.rs:358-364). -/
def Variant.unnamedFields (name : Str) (vs : List (Value T)) : Variant T :=
  .mk name (.mkUnnamed vs)
/-- `Value::named_variant` (value_type.rs:59-66). -/
def Value.namedVariant (name : Str) (fs : List (Str × Value Unit)) : Value Unit :=
  .mk (.variant (.namedFields name fs)) ()
/-- `Value::unnamed_variant` (value_type.rs:68-74). -/
def Value.unnamedVariant (name : Str) (vs : List (Value Unit)) : Value Unit :=
  .mk (.variant (.unnamedFields name vs)) ()
/-- `Value::bit_sequence` (value_type.rs:76-78). -/
def Value.bitSequence (b : List Bool) : Value Unit := .mk (.bitSequence b) ()
/-- `Value::primitive` (value_type.rs:80-82). -/
def Value.primitive (p : Primitive) : Value Unit := .mk (.primitive p) ()
/-- `Value::string` (value_type.rs:84-86). -/
def Value.string (s : Str) : Value Unit := .mk (.primitive (.string s)) ()
/-- `Value::bool` (value_type.rs:88-90). -/
def Value.bool (b : Bool) : Value Unit := .mk (.primitive (.bool b)) ()
/-- `Value::char` (value_type.rs:92-94). -/
def Value.char (c : Char) : Value Unit := .mk (.primitive (.char c)) ()
/-- `Value::u128` (value_type.rs:96-98). -/
def Value.u128 (n : U128) : Value Unit := .mk (.primitive (.u128 n)) ()
/-- `Value::i128` (value_type.rs:100-102). -/
def Value.i128 (n : I128) : Value Unit := .mk (.primitive (.i128 n)) ()
/-- `Value::from_bytes` (value_type.rs:104-107). -/
def Value.fromBytes (bs : List UInt8) : Value Unit :=
  .unnamedComposite (bs.map (fun b => .u128 (.ofU8 b)))

/-! ### Accessors (value_type.rs:134-167, 415-448) -/

/-- `Primitive::as_bool` (value_type.rs:415-420). -/
def Primitive.asBool : Primitive → Option Bool
  | .bool b => some b
  | _ => none
/-- `Primitive::as_char` (value_type.rs:422-427). -/
def Primitive.asChar : Primitive → Option Char
  | .char b => some b
  | _ => none
/-- `Primitive::as_u128` (value_type.rs:429-434). -/
def Primitive.asU128 : Primitive → Option U128
  | .u128 b => some b
  | _ => none
/-- `Primitive::as_i128` (value_type.rs:436-441). -/
def Primitive.asI128 : Primitive → Option I128
  | .i128 b => some b
  | _ => none
/-- `Primitive::as_str` (value_type.rs:443-448). -/
def Primitive.asStr : Primitive → Option Str
  | .string b => some b
  | _ => none

/-- `Value::as_bool` (value_type.rs:134-139). -/
def Value.asBool (v : Value T) : Option Bool :=
  match v.value with
  | .primitive p => p.asBool
  | _ => none
/-- `Value::as_char` (value_type.rs:141-146). -/
def Value.asChar (v : Value T) : Option Char :=
  match v.value with
  | .primitive p => p.asChar
  | _ => none
/-- `Value::as_u128` (value_type.rs:148-153). -/
def Value.asU128 (v : Value T) : Option U128 :=
  match v.value with
  | .primitive p => p.asU128
  | _ => none
/-- `Value::as_i128` (value_type.rs:155-160). -/
def Value.asI128 (v : Value T) : Option I128 :=
  match v.value with
  | .primitive p => p.asI128
  | _ => none
/-- `Value::as_str` (value_type.rs:162-167). -/
def Value.asStr (v : Value T) : Option Str :=
  match v.value with
  | .primitive p => p.asStr
  | _ => none

/-! ### `From` conversions (value_type.rs:451-516) -/

/-- The Rust values that have a `From` conversion to `Primitive` through `impl_primitive_type!`
(value_type.rs:479-495) and `From<&str>` (value_type.rs:500-504). `usize` is modelled with Lean's `USize` whose width
(32 or 64) is unknown, like the Rust target's. -/
inductive PrimSource where
  | bool (b : Bool)
  | char (c : Char)
  | string (s : Str)
  | str (s : Str)
  | u128 (n : U128)
  | u64 (n : UInt64)
  | usize (n : USize)
  | u32 (n : UInt32)
  | u16 (n : UInt16)
  | u8 (n : UInt8)
  | i128 (n : I128)
  | i64 (n : Int64)
  | isize (n : ISize)
  | i32 (n : Int32)
  | i16 (n : Int16)
  | i8 (n : Int8)

theorem usize_lt (n : USize) : n.toNat < 2 ^ 128 := by
  have h := n.toNat_lt_size
  have : USize.size ≤ 2 ^ 64 := by
    rcases System.Platform.numBits_eq with h' | h' <;> simp [USize.size, h']
  omega

theorem isize_ge (n : ISize) : -(2 ^ 127 : Int) ≤ n.toInt := by
  have h := ISize.le_toInt n
  have h2 : (2 : Int) ^ (System.Platform.numBits - 1) ≤ 2 ^ 63 := by
    rcases System.Platform.numBits_eq with h' | h' <;> rw [h'] <;> decide
  have h3 : (2 : Int) ^ 63 ≤ 2 ^ 127 := by decide
  omega

theorem isize_lt (n : ISize) : n.toInt < (2 ^ 127 : Int) := by
  have h := ISize.toInt_lt n
  have h2 : (2 : Int) ^ (System.Platform.numBits - 1) ≤ 2 ^ 63 := by
    rcases System.Platform.numBits_eq with h' | h' <;> rw [h'] <;> decide
  have h3 : (2 : Int) ^ 63 ≤ 2 ^ 127 := by decide
  omega

/-- `impl From<$ty> for Primitive` (value_type.rs:459-463): the variant named in the macro table with `val as $castty`
(all of these casts widen). -/
def Primitive.from : PrimSource → Primitive
  | .bool b => .bool b
  | .char c => .char c
  | .string s => .string s
  | .str s => .string s
  | .u128 n => .u128 n
  | .u64 n => .u128 ⟨n.toNat, by have := n.toNat_lt; omega⟩
  | .usize n => .u128 ⟨n.toNat, usize_lt n⟩
  | .u32 n => .u128 ⟨n.toNat, by have := n.toNat_lt; omega⟩
  | .u16 n => .u128 ⟨n.toNat, by have := n.toNat_lt; omega⟩
  | .u8 n => .u128 ⟨n.toNat, by have := n.toNat_lt; omega⟩
  | .i128 n => .i128 n
  | .i64 n => .i128 ⟨n.toInt, by have := n.le_toInt; omega, by have := n.toInt_lt; omega⟩
  | .isize n => .i128 ⟨n.toInt, isize_ge n, isize_lt n⟩
  | .i32 n => .i128 ⟨n.toInt, by have := n.le_toInt; omega, by have := n.toInt_lt; omega⟩
  | .i16 n => .i128 ⟨n.toInt, by have := n.le_toInt; omega, by have := n.toInt_lt; omega⟩
  | .i8 n => .i128 ⟨n.toInt, by have := n.le_toInt; omega, by have := n.toInt_lt; omega⟩

/-- `impl From<$ty> for Value<()>` (value_type.rs:471-475, 512-516). -/
def Value.from (x : PrimSource) : Value Unit := .withoutContext (.primitive (.from x))

/-- `impl From<Vec<V>> for Value<()>` (value_type.rs:287-304), with `V: Into<Value<()>>` given by
`into`. -/
def Value.fromVec {V : Type} (into : V → Value Unit) (vals : List V) : Value Unit :=
  .withoutContext (.composite (.unnamed (vals.map into)))

/-- `impl From<Vec<(K, V)>> for Value<()>` (value_type.rs:306-323). -/
def Value.fromVecNamed {K V : Type} (intoS : K → Str) (into : V → Value Unit) (vals : List (K × V)) :
    Value Unit :=
  .withoutContext (.composite (.named (vals.map (fun p => (intoS p.1, into p.2)))))

/-! ### `at.rs` -/

/-- `Location` / `LocationInner` (at.rs:122-160): `&str`/`String` locations and `usize` locations. -/
inductive Loc where
  | str (s : Str)
  | idx (n : Nat)
  deriving DecidableEq

/-- `vals.iter().find_map(|(n, v)| if s == n { Some(v) } else { None })` (at.rs:80). -/
def findNamed (s : Str) : List (Str × Value T) → Option (Value T)
  | [] => none
  | (n, v) :: r => if s = n then some v else findNamed s r

/-- `impl At for Composite` (at.rs:75-93). -/
def Composite.at (c : Composite T) : Loc → Option (Value T)
  | .str s => match c with
    | .named vals => findNamed s vals
    | .unnamed _ => none
  | .idx n => match c with
    | .named vals => (vals[n]?).map (fun p => p.2)
    | .unnamed vals => vals[n]?

/-- `impl At for Variant` (at.rs:95-99). -/
def Variant.at (v : Variant T) (l : Loc) : Option (Value T) := v.values.at l

/-- `impl At for Value` (at.rs:101-109). -/
def Value.at (v : Value T) (l : Loc) : Option (Value T) :=
  match v.value with
  | .composite c => c.at l
  | .variant v => v.at l
  | _ => none

/-- `impl At for Option<&T>` (at.rs:111-115), at `T = Value`. -/
def optAt (v : Option (Value T)) (l : Loc) : Option (Value T) :=
  match v with
  | none => none
  | some v => v.at l

/-- A chain `v.at(l1).at(l2)...`: the first call is on the value, the further ones on options. (at.rs:101-115) -/
def Value.atPath (v : Value T) : List Loc → Option (Value T)
  | [] => some v
  | l :: ls => ls.foldl optAt (v.at l)

end SV
