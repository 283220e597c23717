import Verif.Spec.Grammar
import Verif.Spec.Scale
/-
How large values are: the measures for what is said about memory and recursion.
-/
namespace SV

variable {T : Type}

mutual
/-- The size of a value: one for itself, the characters of a string, the bits of a bit sequence, and the sizes of the values inside. Names are not counted. -/
def Value.size : Value T → Nat
  | .mk (.primitive (.string s)) _ => 1 + s.length
  | .mk (.primitive _) _ => 1
  | .mk (.bitSequence b) _ => 1 + b.length
  | .mk (.composite (.named fs)) _ => 1 + fieldsSize fs
  | .mk (.composite (.unnamed vs)) _ => 1 + valuesSize vs
  | .mk (.variant (.mk _ (.named fs))) _ => 1 + fieldsSize fs
  | .mk (.variant (.mk _ (.unnamed vs))) _ => 1 + valuesSize vs
/-- The sum of the sizes of some fields. -/
def fieldsSize : List (Str × Value T) → Nat
  | [] => 0
  | (_, v) :: fs => v.size + fieldsSize fs
/-- The sum of the sizes of some values. -/
def valuesSize : List (Value T) → Nat
  | [] => 0
  | v :: vs => v.size + valuesSize vs
end

mutual
/-- The number of values in a value, with itself. -/
def Value.count : Value T → Nat
  | .mk (.primitive _) _ => 1
  | .mk (.bitSequence _) _ => 1
  | .mk (.composite (.named fs)) _ => 1 + fieldsCount fs
  | .mk (.composite (.unnamed vs)) _ => 1 + valuesCount vs
  | .mk (.variant (.mk _ (.named fs))) _ => 1 + fieldsCount fs
  | .mk (.variant (.mk _ (.unnamed vs))) _ => 1 + valuesCount vs
/-- The number of values in some fields. -/
def fieldsCount : List (Str × Value T) → Nat
  | [] => 0
  | (_, v) :: fs => v.count + fieldsCount fs
/-- The number of values in some values. -/
def valuesCount : List (Value T) → Nat
  | [] => 0
  | v :: vs => v.count + valuesCount vs
end

mutual
/-- The characters of all names of fields and variants in a value. -/
def Value.nameSize : Value T → Nat
  | .mk (.primitive _) _ => 0
  | .mk (.bitSequence _) _ => 0
  | .mk (.composite (.named fs)) _ => fieldsNameSize fs
  | .mk (.composite (.unnamed vs)) _ => valuesNameSize vs
  | .mk (.variant (.mk n (.named fs))) _ => n.length + fieldsNameSize fs
  | .mk (.variant (.mk n (.unnamed vs))) _ => n.length + valuesNameSize vs
/-- The same for some fields. -/
def fieldsNameSize : List (Str × Value T) → Nat
  | [] => 0
  | (n, v) :: fs => n.length + v.nameSize + fieldsNameSize fs
/-- The same for some values. -/
def valuesNameSize : List (Value T) → Nat
  | [] => 0
  | v :: vs => v.nameSize + valuesNameSize vs
end

/-- `Deep v n`: there are `n` values in `v` (the first of them `v`) each of which is directly inside the one before. -/
inductive Deep : Value T → Nat → Prop
  | here {v} : Deep v 1
  | inside {v w n} : w ∈ v.children → Deep w n → Deep v (n + 1)

/-- The number of opening brackets in a text. -/
def brackets (s : Str) : Nat := s.countP (fun c => c == '(' || c == '{')

/-- The types in a type are finitely many. -/
def FinitelyMany {Id : Type} (reg : Reg Id) (t : Id) : Prop := ∃ ids : List Id, ∀ u, Reach reg t u → u ∈ ids

end SV
