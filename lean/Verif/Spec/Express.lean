import Verif.Spec.Trip
/-
Which values texts can express.
-/
namespace SV

variable {T : Type}

/-- Primitives that have a literal: all but the 256 bit numbers and the signed numbers above zero (`-0` is a literal). -/
def Sayable : Primitive → Prop
  | .u256 _ => False
  | .i256 _ => False
  | .i128 n => n.val ≤ 0
  | _ => True

/-- Values all of whose primitives have literals. Names may be anything. -/
inductive Expressible : Value T → Prop
  | prim {p c} (h : Sayable p) : Expressible (.mk (.primitive p) c)
  | bits {b c} : Expressible (.mk (.bitSequence b) c)
  | composite {f : Composite T} {c} (h : ∀ v ∈ f.vals, Expressible v) : Expressible (.mk (.composite f) c)
  | variant {n} {f : Composite T} {c} (h : ∀ v ∈ f.vals, Expressible v) : Expressible (.mk (.variant (.mk n f)) c)

end SV
