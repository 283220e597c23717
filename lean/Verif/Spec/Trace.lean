import Verif.Spec.DecFault
import Verif.Spec.Value
import Verif.Model.Trace
/-
What it means for the decoding of some bytes to fail at a place, and what has been decoded by then.
-/
namespace SV

variable {Id : Type}

/-- All of the fields (at least one) have a name. -/
def AllNamed (fs : List (Field Id)) : Prop := fs ≠ [] ∧ ∀ f ∈ fs, f.name ≠ none

/-- The first few fields of `fs` with their values, as a composite. -/
inductive Partial (fs : List (Field Id)) (vs : List (Value Id)) : Composite Id → Prop
  | named : AllNamed fs → Partial fs vs (.named ((fs.map (fun f => f.name.getD [])).zip vs))
  | unnamed : ¬ AllNamed fs → Partial fs vs (.unnamed vs)

/-- How a path names the `k`th field: by name if all fields have names, else by position. -/
inductive SegOf (fs : List (Field Id)) (k : Nat) : PathSeg → Prop
  | field {f n} : AllNamed fs → fs[k]? = some f → f.name = some n → SegOf fs k (.field n)
  | index : ¬ AllNamed fs → SegOf fs k (.index k)

/-- No group of unnamed values in `v` has more than 100 million members. -/
def SmallGroups {T : Type} (v : Value T) : Prop := ∀ w vs, Sub v w → w.fields? = some (.unnamed vs) → vs.length ≤ 100000000

/-- The node made of a composite: a variant if there is a name for it. -/
def nodeOf (ty : Id) (name : Option Str) (c : Composite Id) : Value Id :=
  match name with
  | none => .mk (.composite c) ty
  | some n => .mk (.variant (.mk n c)) ty

/-- `FailsAt reg c t bs path soFar e`: the bytes `bs` cannot be decoded at type `t` (with `c`: `Compact<t>`), because of the error `e`, which is met
at the place `path` in the value. `soFar` is what has been decoded of the value: nothing if the failure is at its root. -/
inductive FailsAt (reg : Reg Id) : Bool → Id → List UInt8 → Path → Option (Value Id) → DErr → Prop
  /-- The node itself cannot be read. -/
  | here {c t bs e} (h : NodeFault reg c t bs e) : FailsAt reg c t bs [] none e
  /-- The node claims to have more items than the decoder is willing to decode. -/
  | tooMany {c t bs ty c' fs r} (h : NodeParts reg c t bs ty c' none fs r) (hn : ¬ AllNamed fs) (hl : 100000000 < fs.length) : FailsAt reg c t bs [] none .tooManyEntries
  /-- The same for the fields of a variant: the path then has the name of the variant. -/
  | tooManyVariant {c t bs ty c' name fs r} (h : NodeParts reg c t bs ty c' (some name) fs r) (hn : ¬ AllNamed fs) (hl : 100000000 < fs.length) :
      FailsAt reg c t bs [.variant name] (some (.mk (.variant (.mk name (.unnamed []))) ty)) .tooManyEntries
  /-- The parts before the `k`th have been decoded, and the `k`th fails. What has been decoded of the `k`th part is the last part of what
  has been decoded. -/
  | part {c t bs ty c' name fs r k f p r' vs seg path soFar e cs} (h : NodeParts reg c t bs ty c' name fs r) (hf : fs[k]? = some f) (hr : r = p ++ r')
      (before : ScaleAll reg False .i256 id c' ((fs.take k).map (fun f => f.id)) vs p) (small : ∀ v ∈ vs, SmallGroups v)
      (hl : ¬ (¬ AllNamed fs ∧ 100000000 < fs.length)) (fails : FailsAt reg c' f.id r' path soFar e) (hs : SegOf fs k seg) (hc : Partial fs (vs ++ soFar.toList) cs) :
      FailsAt reg c t bs (seg :: path) (some (nodeOf ty name cs)) e

/-- A 256 bit number taken as unsigned. -/
def unsigned : Primitive → Primitive
  | .i256 b => .u256 b
  | p => p

mutual
/-- Replace all primitives in a value. -/
def Value.mapPrim {T : Type} (g : Primitive → Primitive) : Value T → Value T
  | .mk v c => .mk (v.mapPrim g) c
def ValueDef.mapPrim {T : Type} (g : Primitive → Primitive) : ValueDef T → ValueDef T
  | .composite c => .composite (c.mapPrim g)
  | .variant (.mk n c) => .variant (.mk n (c.mapPrim g))
  | .bitSequence b => .bitSequence b
  | .primitive p => .primitive (g p)
def Composite.mapPrim {T : Type} (g : Primitive → Primitive) : Composite T → Composite T
  | .named fs => .named (mapPrimFields g fs)
  | .unnamed vs => .unnamed (mapPrimVals g vs)
def mapPrimFields {T : Type} (g : Primitive → Primitive) : List (Str × Value T) → List (Str × Value T)
  | [] => []
  | (k, v) :: r => (k, v.mapPrim g) :: mapPrimFields g r
def mapPrimVals {T : Type} (g : Primitive → Primitive) : List (Value T) → List (Value T)
  | [] => []
  | v :: r => v.mapPrim g :: mapPrimVals g r
end

end SV
