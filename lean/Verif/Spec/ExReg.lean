import Verif.Spec.Scale
/-
A small type registry for the examples that go with the theorems.
-/
namespace SV

/-- 0 `u8`, 1 `u32`, 2 `Vec<u8>`, 3 `struct { a: u8, b: Vec<u8> }`, 4 `enum { A, B(u8, u8), C { x: bool } }` with indexes 0, 5, 7,
5 `I256`, 6 `Compact<u32>`, 7 `(u8, u8)`, 8 `[u8; 3]`, 9 `BitVec<u8, Lsb0>`, 10 `String`, 11 `char`, 12 `bool`, 13 `(3, 4)`,
14 `struct W(u8)`, 15 `struct X(W)`, 16 `i16`, 17 `Vec<13>`, 18 `Vec<Vec<u8>>`, 19 `struct Y(Vec<Vec<u8>>)`, 20 `struct Z(Y)`. -/
def exResolve : Nat → Option (TypeDef Nat)
  | 0 => some (.primitive .u8)
  | 1 => some (.primitive .u32)
  | 2 => some (.sequence 0)
  | 3 => some (.composite [⟨some ['a'], 0⟩, ⟨some ['b'], 2⟩])
  | 4 => some (.variant [⟨['A'], 0, []⟩, ⟨['B'], 5, [⟨none, 0⟩, ⟨none, 0⟩]⟩, ⟨['C'], 7, [⟨some ['x'], 12⟩]⟩])
  | 5 => some (.primitive .i256)
  | 6 => some (.compact 1)
  | 7 => some (.tuple [0, 0])
  | 8 => some (.array 0 3)
  | 9 => some (.bitSequence .u8 .lsb0)
  | 10 => some (.primitive .str)
  | 11 => some (.primitive .char)
  | 12 => some (.primitive .bool)
  | 13 => some (.tuple [3, 4])
  | 14 => some (.composite [⟨none, 0⟩])
  | 15 => some (.composite [⟨none, 14⟩])
  | 16 => some (.primitive .i16)
  | 17 => some (.sequence 13)
  | 18 => some (.sequence 2)
  | 19 => some (.composite [⟨none, 18⟩])
  | 20 => some (.composite [⟨none, 19⟩])
  | _ => none

/-- The registry; every type comes after those it contains. -/
def exReg : Reg Nat where
  resolve := exResolve
  rank t := t
  rank_lt := by
    intro t d u h hu
    unfold exResolve at h
    split at h <;> cases h <;> simp [TypeDef.inline] at hu <;> omega

end SV
