import Verif.Spec.Encode
/-
The data in a value, in order, whatever the shape of the value; and which types bytes can be told apart for.
-/
namespace SV

variable {Id T : Type}

/-- A piece of data: a number (booleans and bits are 0 and 1, characters are their code points), a text, or the name of a variant. -/
inductive Datum where
  | num (n : Int)
  | text (s : Str)
  | tag (s : Str)

/-- A bit as a number. -/
def Datum.bit (b : Bool) : Datum := .num (if b then 1 else 0)

/-- The data of a primitive; a 256 bit number is 32 bytes. -/
def Primitive.leaves : Primitive → List Datum
  | .bool b => [.bit b]
  | .char c => [.num c.toNat]
  | .string s => [.text s]
  | .u128 n => [.num n.val]
  | .i128 n => [.num n.val]
  | .u256 b => b.bytes.map (fun x => .num x.toNat)
  | .i256 b => b.bytes.map (fun x => .num x.toNat)

mutual
/-- The data in a value, in order. -/
def Value.leaves : Value T → List Datum
  | .mk (.composite c) _ => c.leaves
  | .mk (.variant (.mk n c)) _ => .tag n :: c.leaves
  | .mk (.primitive p) _ => p.leaves
  | .mk (.bitSequence b) _ => b.map .bit
/-- The data in a composite: names are not data. -/
def Composite.leaves : Composite T → List Datum
  | .named fs => fieldLeaves fs
  | .unnamed vs => valueLeaves vs
/-- The data in fields. -/
def fieldLeaves : List (Str × Value T) → List Datum
  | [] => []
  | (_, v) :: r => v.leaves ++ fieldLeaves r
/-- The data in several values. -/
def valueLeaves : List (Value T) → List Datum
  | [] => []
  | v :: r => v.leaves ++ valueLeaves r
end

/-- There are no named composites in a value, and no variants with named fields. -/
def NoNames (v : Value T) : Prop := ∀ w c, Sub v w → w.fields? = some c → ∃ vs, c = .unnamed vs

/-- All lengths in a value are less than `2 ^ 32`, as the format requires. -/
def Sized (v : Value T) : Prop := Short v ∧ ∀ w b, Sub v w → w.value = .bitSequence b → b.length < 2 ^ 32

/-- In the type, the variants of each enum have different indexes, and `Compact` does not occur around arrays (there is no such `Compact`). -/
def Sensible (reg : Reg Id) (t : Id) : Prop := ∀ u, Reach reg t u →
  (∀ ds, reg.resolve u = some (.variant ds) → (ds.map (fun d => d.index)).Nodup) ∧
  (∀ w, reg.resolve u = some (.compact w) → ∀ x, SameRepr reg w x → ∀ y n, reg.resolve x ≠ some (.array y n))

end SV
