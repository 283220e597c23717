import Verif.Model.Codec
import Verif.Model.Value
/-
The type registry that values are encoded and decoded against: *dependency model* of `scale_type_resolver::TypeResolver`
(used in /repo/src/scale_impls/decode.rs:20 and encode.rs:20).
-/
namespace SV

/-- `scale_type_resolver::Primitive` (matched on by the crates behind encode.rs:346-361 and decode.rs:190-293). -/
inductive Prim where
  | bool | char | str
  | u8 | u16 | u32 | u64 | u128 | u256
  | i8 | i16 | i32 | i64 | i128 | i256
  deriving DecidableEq

/-- `scale_type_resolver::Field` (through `FieldIter`, decode.rs:52, encode.rs:60): an optional name and a type id. -/
structure Field (Id : Type) where
  name : Option Str
  id : Id

/-- `scale_type_resolver::Variant`: name, index and fields of one variant of an enum type. (behind encode.rs:336 and decode.rs:335) -/
structure VariantDef (Id : Type) where
  name : Str
  index : UInt8
  fields : List (Field Id)

/-- The kinds of type which a `ResolvedTypeVisitor` may be shown (encode.rs:115-169). -/
inductive TypeDef (Id : Type) where
  | composite (fields : List (Field Id))
  | variant (variants : List (VariantDef Id))
  | sequence (id : Id)
  | array (id : Id) (len : Nat)
  | tuple (ids : List Id)
  | primitive (p : Prim)
  | compact (id : Id)
  | bitSequence (store : BitStore) (order : BitOrder)

/-- The types that a value of some type contains without any length or index byte in front of them. (the types that encode.rs:242-266 looks through, and their like) -/
def TypeDef.inline {Id : Type} : TypeDef Id → List Id
  | .composite fs => fs.map (fun f => f.id)
  | .array t _ => [t]
  | .tuple ts => ts
  | .compact t => [t]
  | _ => []

/-- A type registry. `resolve t = none` is the `visit_not_found`/`Err` case of `TypeResolver::resolve_type`. The `rank` says
that no type contains itself inline: on a type which does (its values would be infinitely large; no Rust type has such type
information) both the encoder and the decoder overflow the stack. Types may be recursive through sequences and variants. (encode.rs:171, 267) -/
structure Reg (Id : Type) where
  resolve : Id → Option (TypeDef Id)
  rank : Id → Nat
  rank_lt : ∀ t d u, resolve t = some d → u ∈ d.inline → rank u < rank t

end SV
