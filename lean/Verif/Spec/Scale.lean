import Verif.Spec.Codec
import Verif.Spec.Value
import Verif.Model.Registry
/-
Specification of SCALE: which bytes stand for which value of which type, as a relation. It follows the SCALE specification and
is independent of how the crate (or its dependencies) encode or decode.
-/
namespace SV

variable {Id Γ : Type}

/-- The width in bytes of the unsigned integer types (up to 128 bits). -/
inductive UintType : Prim → Nat → Prop
  | u8 : UintType .u8 1
  | u16 : UintType .u16 2
  | u32 : UintType .u32 4
  | u64 : UintType .u64 8
  | u128 : UintType .u128 16

/-- The width in bytes of the signed integer types (up to 128 bits). -/
inductive IntType : Prim → Nat → Prop
  | i8 : IntType .i8 1
  | i16 : IntType .i16 2
  | i32 : IntType .i32 4
  | i64 : IntType .i64 8
  | i128 : IntType .i128 16

/-- The composite that stands for fields `fs` with the values `vs`: named if there are fields and all have names, else unnamed. -/
inductive HasShape (fs : List (Field Id)) (vs : List (Value Γ)) : Composite Γ → Prop
  | named {names : List Str} : fs ≠ [] → fs.map (fun f => f.name) = names.map some → HasShape fs vs (.named (names.zip vs))
  | unnamed : (fs = [] ∨ ∃ f ∈ fs, f.name = none) → HasShape fs vs (.unnamed vs)

mutual
/-- `Scale reg canon i256 ctx c t v bs`: the bytes `bs` encode the value `v` at the type `t` of the registry `reg` (with `c`: at
`Compact<t>`). Every node of `v` carries `ctx u` as its context where `u` is the type id of the node (a node of type `Compact<u>` counts
as being of type `u`). Signed 256 bit numbers are represented by `i256`. With `canon`, bits that pad a bit sequence are zero and
lengths fit in 32 bits: this is what encoders produce. -/
inductive Scale (reg : Reg Id) (canon : Prop) (i256 : Bytes32 → Primitive) (ctx : Id → Γ) :
    Bool → Id → Value Γ → List UInt8 → Prop
  | bool {t b} : reg.resolve t = some (.primitive .bool) →
      Scale reg canon i256 ctx false t (.mk (.primitive (.bool b)) (ctx t)) [if b then 1 else 0]
  | char {t c bs} : reg.resolve t = some (.primitive .char) → IsLe 4 c.toNat bs →
      Scale reg canon i256 ctx false t (.mk (.primitive (.char c)) (ctx t)) bs
  | str {t s p} : reg.resolve t = some (.primitive .str) → IsCompact (utf8Bytes s).length p → (utf8Bytes s).length < 2 ^ 64 →
      (canon → (utf8Bytes s).length < 2 ^ 32) →
      Scale reg canon i256 ctx false t (.mk (.primitive (.string s)) (ctx t)) (p ++ utf8Bytes s)
  | uint {t p k n bs} : reg.resolve t = some (.primitive p) → UintType p k → IsLe k n.val bs →
      Scale reg canon i256 ctx false t (.mk (.primitive (.u128 n)) (ctx t)) bs
  | int {t p k n bs} : reg.resolve t = some (.primitive p) → IntType p k → IsLeInt k n.val bs →
      Scale reg canon i256 ctx false t (.mk (.primitive (.i128 n)) (ctx t)) bs
  | u256 {t b} : reg.resolve t = some (.primitive .u256) →
      Scale reg canon i256 ctx false t (.mk (.primitive (.u256 b)) (ctx t)) b.bytes
  | i256 {t b} : reg.resolve t = some (.primitive .i256) →
      Scale reg canon i256 ctx false t (.mk (.primitive (i256 b)) (ctx t)) b.bytes
  | compact {t u v bs} : reg.resolve t = some (.compact u) → Scale reg canon i256 ctx true u v bs →
      Scale reg canon i256 ctx false t v bs
  | compactUint {t p k n bs} : reg.resolve t = some (.primitive p) → UintType p k → n.val < 256 ^ k → IsCompact n.val bs →
      Scale reg canon i256 ctx true t (.mk (.primitive (.u128 n)) (ctx t)) bs
  | sequence {t u vs p bs} : reg.resolve t = some (.sequence u) → IsCompact vs.length p → vs.length < 2 ^ 64 →
      (canon → vs.length < 2 ^ 32) → ScaleAll reg canon i256 ctx false (List.replicate vs.length u) vs bs →
      Scale reg canon i256 ctx false t (.mk (.composite (.unnamed vs)) (ctx t)) (p ++ bs)
  | array {t u n vs bs} : reg.resolve t = some (.array u n) → ScaleAll reg canon i256 ctx false (List.replicate n u) vs bs →
      Scale reg canon i256 ctx false t (.mk (.composite (.unnamed vs)) (ctx t)) bs
  | tuple {c t ts vs bs} : reg.resolve t = some (.tuple ts) → (c = true → ts.length = 1) → ScaleAll reg canon i256 ctx c ts vs bs →
      Scale reg canon i256 ctx c t (.mk (.composite (.unnamed vs)) (ctx t)) bs
  | composite {c t fs vs cs bs} : reg.resolve t = some (.composite fs) → (c = true → fs.length = 1) →
      ScaleAll reg canon i256 ctx c (fs.map (fun f => f.id)) vs bs → HasShape fs vs cs →
      Scale reg canon i256 ctx c t (.mk (.composite cs) (ctx t)) bs
  | variant {t ds d vs cs bs} : reg.resolve t = some (.variant ds) → ds.find? (fun e => e.index == d.index) = some d →
      ScaleAll reg canon i256 ctx false (d.fields.map (fun f => f.id)) vs bs → HasShape d.fields vs cs →
      Scale reg canon i256 ctx false t (.mk (.variant (.mk d.name cs)) (ctx t)) (d.index :: bs)
  | bits {t s o b p q} : reg.resolve t = some (.bitSequence s o) → IsCompact b.length p → b.length < 2 ^ 32 → IsBits canon s o b q →
      Scale reg canon i256 ctx false t (.mk (.bitSequence b) (ctx t)) (p ++ q)
/-- The bytes of several values are the bytes of each, one after the other. -/
inductive ScaleAll (reg : Reg Id) (canon : Prop) (i256 : Bytes32 → Primitive) (ctx : Id → Γ) :
    Bool → List Id → List (Value Γ) → List UInt8 → Prop
  | nil {c} : ScaleAll reg canon i256 ctx c [] [] []
  | cons {c t ts v vs bs bs'} : Scale reg canon i256 ctx c t v bs → ScaleAll reg canon i256 ctx c ts vs bs' →
      ScaleAll reg canon i256 ctx c (t :: ts) (v :: vs) (bs ++ bs')
end

/-- The type ids that occur in a type definition. -/
def TypeDef.refs {Id : Type} : TypeDef Id → List Id
  | .composite fs => fs.map (fun f => f.id)
  | .variant ds => ds.flatMap (fun d => d.fields.map (fun f => f.id))
  | .sequence t => [t]
  | .array t _ => [t]
  | .tuple ts => ts
  | .primitive _ => []
  | .compact t => [t]
  | .bitSequence _ _ => []

/-- `Reach reg t u`: the type `u` occurs in the type `t`, at any depth. -/
inductive Reach {Id : Type} (reg : Reg Id) (t : Id) : Id → Prop
  | self : Reach reg t t
  | step {u d w} : Reach reg t u → reg.resolve u = some d → w ∈ d.refs → Reach reg t w

/-- `Sub v w`: `w` is `v` or somewhere inside of it. -/
inductive Sub {T : Type} : Value T → Value T → Prop
  | self (v) : Sub v v
  | child {v u w} : u ∈ v.children → Sub u w → Sub v w

/-- Space for the members of every composite and variant in `v` can be allocated. -/
def AllocOk (al : Nat → Bool) (v : Value Γ) : Prop := ∀ w c, Sub v w → w.fields? = some c → al c.len = true

end SV
