import Verif.Spec.Scale
import Verif.Spec.Serde
/-
What `#[derive(Encode, TypeInfo)]` (parity-scale-codec and scale-info) do for the Rust types that serde knows (`Ty`): the bytes of data, and the description of the type in a
registry. This is the static route to SCALE, which does not go through values.
-/
namespace SV

variable {Id : Type}

/-- The types of the contents of a variant. -/
def VTy.types : VTy → List Ty
  | .unit => []
  | .newtype t => [t]
  | .tuple ts => ts
  | .struct fs => fs.map (fun f => f.2)

/-- The names of the fields of a variant. -/
def VTy.names : VTy → List (Option Str)
  | .unit => []
  | .newtype _ => [none]
  | .tuple ts => ts.map (fun _ => none)
  | .struct fs => fs.map (fun f => some f.1)

/-- The integer type of the registry. -/
def NumTy.prim : NumTy → Prim
  | .u8 => .u8 | .u16 => .u16 | .u32 => .u32 | .u64 => .u64 | .u128 => .u128
  | .i8 => .i8 | .i16 => .i16 | .i32 => .i32 | .i64 => .i64 | .i128 => .i128

mutual
/-- `Static ix t d bs`: the SCALE bytes of the data `d` of the type `t`. `ix` gives the variants of an enum (by name) their index: the position, or `#[codec(index = ..)]`. There is no encoding
for `char`s. Maps (which are encoded as sequences of pairs) and values are not included. -/
inductive Static (ix : List (Str × VTy) → Str → UInt8) : Ty → Dat → List UInt8 → Prop
  | bool {b} : Static ix .bool (.bool b) [if b then 1 else 0]
  | unsigned {n : Num} {m : Nat} {bs} : n.ty.signed = false → n.val = m → IsLe (n.ty.bits / 8) m bs → Static ix (.num n.ty) (.num n) bs
  | signed {n : Num} {bs} : n.ty.signed = true → IsLeInt (n.ty.bits / 8) n.val bs → Static ix (.num n.ty) (.num n) bs
  | string {s p} : IsCompact (utf8Bytes s).length p → (utf8Bytes s).length < 2 ^ 32 → Static ix .string (.str s) (p ++ utf8Bytes s)
  | bytes {bs p} : IsCompact bs.length p → bs.length < 2 ^ 32 → Static ix .bytes (.bytes bs) (p ++ bs)
  | unit : Static ix .unit .unit []
  | unitStruct : Static ix .unitStruct .unit []
  | none {t} : Static ix (.option t) .none [0]
  | some {t d bs} : Static ix t d bs → Static ix (.option t) (.some d) (1 :: bs)
  | newtype {t d bs} : Static ix t d bs → Static ix (.newtype t) (.list [d]) bs
  | seq {t ds p bs} : IsCompact ds.length p → ds.length < 2 ^ 32 → StaticAll ix (List.replicate ds.length t) ds bs → Static ix (.seq t) (.list ds) (p ++ bs)
  | tuple {ts ds bs} : StaticAll ix ts ds bs → Static ix (.tuple ts) (.list ds) bs
  | tupleStruct {ts ds bs} : StaticAll ix ts ds bs → Static ix (.tupleStruct ts) (.list ds) bs
  | struct {fs : List (Str × Ty)} {ds bs} : StaticAll ix (fs.map (fun f => f.2)) ds bs → Static ix (.struct fs) (.list ds) bs
  | enum {vs n v ds bs} : (n, v) ∈ vs → StaticAll ix v.types ds bs → Static ix (.enum vs) (.enum n ds) (ix vs n :: bs)
/-- The bytes of several data are the bytes of each, one after the other. -/
inductive StaticAll (ix : List (Str × VTy) → Str → UInt8) : List Ty → List Dat → List UInt8 → Prop
  | nil : StaticAll ix [] [] []
  | cons {t ts d ds bs bs'} : Static ix t d bs → StaticAll ix ts ds bs' → StaticAll ix (t :: ts) (d :: ds) (bs ++ bs')
end

mutual
/-- `Info ix reg t id`: in the registry, `id` describes the Rust type `t`. Structs and variants with braces have at least one field. -/
inductive Info (ix : List (Str × VTy) → Str → UInt8) (reg : Reg Id) : Ty → Id → Prop
  | bool {t} : reg.resolve t = some (.primitive .bool) → Info ix reg .bool t
  | num {n t} : reg.resolve t = some (.primitive n.prim) → Info ix reg (.num n) t
  | string {t} : reg.resolve t = some (.primitive .str) → Info ix reg .string t
  | bytes {t w} : reg.resolve t = some (.sequence w) → reg.resolve w = some (.primitive .u8) → Info ix reg .bytes t
  | unit {t} : reg.resolve t = some (.tuple []) → Info ix reg .unit t
  | unitStruct {t} : reg.resolve t = some (.composite []) → Info ix reg .unitStruct t
  | option {a t w} : reg.resolve t = some (.variant [⟨"None".toList, 0, []⟩, ⟨"Some".toList, 1, [⟨none, w⟩]⟩]) → Info ix reg a w → Info ix reg (.option a) t
  | newtype {a t w} : reg.resolve t = some (.composite [⟨none, w⟩]) → Info ix reg a w → Info ix reg (.newtype a) t
  | seq {a t w} : reg.resolve t = some (.sequence w) → Info ix reg a w → Info ix reg (.seq a) t
  | tuple {as t ws} : reg.resolve t = some (.tuple ws) → InfoAll ix reg as ws → Info ix reg (.tuple as) t
  | array {a n t w} : reg.resolve t = some (.array w n) → Info ix reg a w → Info ix reg (.tuple (List.replicate n a)) t
  | tupleStruct {as t ws} : reg.resolve t = some (.composite (ws.map (fun w => ⟨none, w⟩))) → InfoAll ix reg as ws → Info ix reg (.tupleStruct as) t
  | struct {fs : List (Str × Ty)} {t gs} : fs ≠ [] → reg.resolve t = some (.composite gs) → gs.map (fun g => g.name) = fs.map (fun f => some f.1) →
      InfoAll ix reg (fs.map (fun f => f.2)) (gs.map (fun g => g.id)) → Info ix reg (.struct fs) t
  | enum {vs : List (Str × VTy)} {t} {ds : List (VariantDef Id)} : reg.resolve t = some (.variant ds) → (vs.map (fun v => v.1)).Nodup → (∀ v ∈ vs, v.2 ≠ .struct []) →
      (ds.map (fun d => d.index)).Nodup → vs.length = ds.length →
      (∀ (i : Nat) (v : Str × VTy) (d : VariantDef Id), vs[i]? = some v → ds[i]? = some d → d.name = v.1 ∧ d.index = ix vs v.1 ∧ d.fields.map (fun g => g.name) = v.2.names) →
      (∀ (i : Nat) (v : Str × VTy) (d : VariantDef Id), vs[i]? = some v → ds[i]? = some d → InfoAll ix reg v.2.types (d.fields.map (fun g => g.id))) →
      Info ix reg (.enum vs) t
/-- The same for several types. -/
inductive InfoAll (ix : List (Str × VTy) → Str → UInt8) (reg : Reg Id) : List Ty → List Id → Prop
  | nil : InfoAll ix reg [] []
  | cons {a as t ts} : Info ix reg a t → InfoAll ix reg as ts → InfoAll ix reg (a :: as) (t :: ts)
end

/-- No list, string or byte string of the data is longer than SCALE allows. -/
inductive ShortDat : Dat → Prop
  | bool {b} : ShortDat (.bool b)
  | num {n} : ShortDat (.num n)
  | str {s} (h : (utf8Bytes s).length < 2 ^ 32) : ShortDat (.str s)
  | bytes {bs} (h : bs.length < 2 ^ 32) : ShortDat (.bytes bs)
  | unit : ShortDat .unit
  | none : ShortDat .none
  | some {d} (h : ShortDat d) : ShortDat (.some d)
  | list {ds} (len : ds.length < 2 ^ 32) (h : ∀ d ∈ ds, ShortDat d) : ShortDat (.list ds)
  | enum {n ds} (h : ∀ d ∈ ds, ShortDat d) : ShortDat (.enum n ds)

end SV
