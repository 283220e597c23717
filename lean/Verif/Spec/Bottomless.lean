import Verif.Spec.Endless
/-
Specification: wrapper types without end.
-/
namespace SV

variable {Id : Type}

/-- The type `t` is a struct with one field, a tuple of one, or an array of length one, of type `u`. -/
inductive WrapsIn (res : Id → Option (TypeDef Id)) (t : Id) : Id → Prop
  | struct {f} (h : res t = some (.composite [f])) : WrapsIn res t f.id
  | tuple {u} (h : res t = some (.tuple [u])) : WrapsIn res t u
  | array {u} (h : res t = some (.array u 1)) : WrapsIn res t u

/-- The type is a wrapper of a wrapper of a wrapper .. without end, like `struct A(B); struct B(A);`. -/
def Bottomless (res : Id → Option (TypeDef Id)) (t : Id) : Prop :=
  ∃ chain : Nat → Id, chain 0 = t ∧ ∀ n, WrapsIn res (chain n) (chain (n + 1))

/-- The same, with structs and tuples only. -/
def BottomlessBare (res : Id → Option (TypeDef Id)) (t : Id) : Prop :=
  ∃ chain : Nat → Id, chain 0 = t ∧ ∀ n, WrapsIn res (chain n) (chain (n + 1)) ∧ ∀ u k, res (chain n) ≠ some (.array u k)

end SV
