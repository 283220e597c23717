import Verif.Model.Value
/-
Model of the remaining conversions of /repo/src/value_type.rs, and of the `PartialEq` that is derived for its types.
-/
namespace SV

variable {T : Type}

/-! ### Conversions -/

/-- `Primitive::u128` (value_type.rs:407-409). -/
def Primitive.ofU128 (n : U128) : Primitive := .u128 n
/-- `Primitive::i128` (value_type.rs:411-413). -/
def Primitive.ofI128 (n : I128) : Primitive := .i128 n
/-- `impl From<Primitive> for ValueDef<T>` (value_type.rs:451-455). -/
def ValueDef.ofPrimitive (p : Primitive) : ValueDef T := .primitive p
/-- `impl From<$ty> for ValueDef<T>` (value_type.rs:465-469, 506-510). -/
def ValueDef.from (x : PrimSource) : ValueDef T := .primitive (.from x)
/-- `impl From<BitSequence> for ValueDef<T>` (value_type.rs:198-202). -/
def ValueDef.ofBits (b : List Bool) : ValueDef T := .bitSequence b
/-- `impl From<BitSequence> for Value<()>` (value_type.rs:204-208). -/
def Value.ofBits (b : List Bool) : Value Unit := .withoutContext (.ofBits b)
/-- `impl From<Composite<T>> for ValueDef<T>` (value_type.rs:325-329). -/
def ValueDef.ofComposite (c : Composite T) : ValueDef T := .composite c
/-- `impl From<Composite<()>> for Value<()>` (value_type.rs:331-335). -/
def Value.ofComposite (c : Composite Unit) : Value Unit := .withoutContext (.composite c)
/-- `impl From<Variant<T>> for ValueDef<T>` (value_type.rs:374-378). -/
def ValueDef.ofVariant (v : Variant T) : ValueDef T := .variant v
/-- `impl From<Variant<()>> for Value<()>` (value_type.rs:380-384). -/
def Value.ofVariant (v : Variant Unit) : Value Unit := .withoutContext (.variant v)
/-- `impl From<Vec<V>> for Composite<()>` (value_type.rs:287-292). -/
def Composite.fromVec {V : Type} (into : V → Value Unit) (vals : List V) : Composite Unit := .unnamed (vals.map into)
/-- `impl From<Vec<V>> for ValueDef<()>` (value_type.rs:294-298). -/
def ValueDef.fromVec {V : Type} (into : V → Value Unit) (vals : List V) : ValueDef Unit := .composite (.fromVec into vals)
/-- `impl From<Vec<(K, V)>> for Composite<()>` (value_type.rs:306-311). -/
def Composite.fromVecNamed {K V : Type} (intoS : K → Str) (into : V → Value Unit) (vals : List (K × V)) : Composite Unit :=
  .named (vals.map (fun p => (intoS p.1, into p.2)))
/-- `impl From<Vec<(K, V)>> for ValueDef<()>` (value_type.rs:313-317). -/
def ValueDef.fromVecNamed {K V : Type} (intoS : K → Str) (into : V → Value Unit) (vals : List (K × V)) : ValueDef Unit :=
  .composite (.fromVecNamed intoS into vals)

/-! ### `==` -/

/-- `PartialEq for Primitive` (derived, value_type.rs:387). -/
def Primitive.eqv : Primitive → Primitive → Bool
  | .bool a, .bool b => a == b
  | .char a, .char b => a == b
  | .string a, .string b => a == b
  | .u128 a, .u128 b => a.val == b.val
  | .i128 a, .i128 b => a.val == b.val
  | .u256 a, .u256 b => a.bytes == b.bytes
  | .i256 a, .i256 b => a.bytes == b.bytes
  | _, _ => false

mutual
/-- `PartialEq for Value<T>` (derived, value_type.rs:28): the contexts are compared too. -/
def Value.eqv (eqT : T → T → Bool) : Value T → Value T → Bool
  | .mk d x, .mk e y => d.eqv eqT e && eqT x y
/-- `PartialEq for ValueDef<T>` (derived, value_type.rs:171). -/
def ValueDef.eqv (eqT : T → T → Bool) : ValueDef T → ValueDef T → Bool
  | .composite a, .composite b => a.eqv eqT b
  | .variant a, .variant b => a.eqv eqT b
  | .bitSequence a, .bitSequence b => a == b
  | .primitive a, .primitive b => a.eqv b
  | _, _ => false
/-- `PartialEq for Variant<T>` (derived, value_type.rs:339). -/
def Variant.eqv (eqT : T → T → Bool) : Variant T → Variant T → Bool
  | .mk n c, .mk m d => n == m && c.eqv eqT d
/-- `PartialEq for Composite<T>` (derived, value_type.rs:213). -/
def Composite.eqv (eqT : T → T → Bool) : Composite T → Composite T → Bool
  | .named a, .named b => eqvNamed eqT a b
  | .unnamed a, .unnamed b => eqvUnnamed eqT a b
  | _, _ => false
/-- `PartialEq for Vec<(String, Value<T>)>` (Rust alloc; value_type.rs:216). -/
def eqvNamed (eqT : T → T → Bool) : List (Str × Value T) → List (Str × Value T) → Bool
  | [], [] => true
  | (n, v) :: a, (m, w) :: b => n == m && v.eqv eqT w && eqvNamed eqT a b
  | _, _ => false
/-- `PartialEq for Vec<Value<T>>` (Rust alloc; value_type.rs:218). -/
def eqvUnnamed (eqT : T → T → Bool) : List (Value T) → List (Value T) → Bool
  | [], [] => true
  | v :: a, w :: b => v.eqv eqT w && eqvUnnamed eqT a b
  | _, _ => false
end

end SV
