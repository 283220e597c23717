import Verif.Spec.Format
import Verif.Spec.Trace
import Verif.Spec.Serde
/-
Specification vocabulary for values that leave the program, as text or in a self-describing format, and come back.
-/
namespace SV

variable {T U : Type}

/-- `SameData v w`: the same but for contexts, and for whether numbers are signed or unsigned: what is a number in one is the same number in the other. -/
inductive SameData : Value T → Value U → Prop
  | number {v : Value T} {w : Value U} {n : Int} (hv : v.number? = some n) (hw : w.number? = some n) : SameData v w
  | prim {p c d} : SameData (.mk (.primitive p) c) (.mk (.primitive p) d)
  | bits {b c d} : SameData (.mk (.bitSequence b) c) (.mk (.bitSequence b) d)
  | named {fs : List (Str × Value T)} {gs : List (Str × Value U)} {c d} (names : fs.map (fun p => p.1) = gs.map (fun p => p.1))
      (sub : ∀ (i : Nat) (x : Str × Value T) (y : Str × Value U), fs[i]? = some x → gs[i]? = some y → SameData x.2 y.2) :
      SameData (.mk (.composite (.named fs)) c) (.mk (.composite (.named gs)) d)
  | unnamed {vs : List (Value T)} {ws : List (Value U)} {c d} (len : vs.length = ws.length)
      (sub : ∀ (i : Nat) (x : Value T) (y : Value U), vs[i]? = some x → ws[i]? = some y → SameData x y) :
      SameData (.mk (.composite (.unnamed vs)) c) (.mk (.composite (.unnamed ws)) d)
  | variant {n} {f : Composite T} {g : Composite U} {c d} (h : SameData (.mk (.composite f) c) (.mk (.composite g) d)) :
      SameData (.mk (.variant (.mk n f)) c) (.mk (.variant (.mk n g)) d)

/-- The values whose text stands for the same data: no 256 bit numbers, and no variants whose names are identifiers that begin with `true` or `false`. Signed numbers may be
anything (as opposed to `Printable`). -/
inductive Textual (u : Uni) : Value T → Prop
  | prim {p c} (h : ∀ b, p ≠ .u256 b ∧ p ≠ .i256 b) : Textual u (.mk (.primitive p) c)
  | bits {b c} : Textual u (.mk (.bitSequence b) c)
  | named {fs c} (h : ∀ p ∈ fs, Textual u p.2) : Textual u (.mk (.composite (.named fs)) c)
  | unnamed {vs c} (h : ∀ v ∈ vs, Textual u v) : Textual u (.mk (.composite (.unnamed vs)) c)
  | vnamed {n fs c} (hn : NameOk u n) (h : ∀ p ∈ fs, Textual u p.2) : Textual u (.mk (.variant (.mk n (.named fs))) c)
  | vunnamed {n vs c} (hn : NameOk u n) (h : ∀ v ∈ vs, Textual u v) : Textual u (.mk (.variant (.mk n (.unnamed vs))) c)

/-- A signed number that is not negative as an unsigned number. -/
def unsign : Primitive → Primitive
  | .i128 n => if h : 0 ≤ n.val then .u128 ⟨n.val.toNat, by have := n.lt; omega⟩ else .i128 n
  | p => p

/-- Values that a self-describing format keeps the data of: composites of numbers, booleans, strings and bit sequences. Not variants, characters and 256 bit numbers. -/
inductive FormatSafe : Value T → Prop
  | bool {b c} : FormatSafe (.mk (.primitive (.bool b)) c)
  | string {s c} : FormatSafe (.mk (.primitive (.string s)) c)
  | number {v : Value T} {n} (h : v.number? = some n) : FormatSafe v
  | bits {b c} : FormatSafe (.mk (.bitSequence b) c)
  | named {fs : List (Str × Value T)} {c} (first : ∀ p, fs.head? = some p → p.1 ≠ "__bitvec__values__".toList) (h : ∀ p ∈ fs, FormatSafe p.2) :
      FormatSafe (.mk (.composite (.named fs)) c)
  | unnamed {vs c} (h : ∀ v ∈ vs, FormatSafe v) : FormatSafe (.mk (.composite (.unnamed vs)) c)

/-- Values that `to_value` and `from_value` keep the data of: characters too. -/
inductive ValueSafe : Value T → Prop
  | bool {b c} : ValueSafe (.mk (.primitive (.bool b)) c)
  | char {x c} : ValueSafe (.mk (.primitive (.char x)) c)
  | string {s c} : ValueSafe (.mk (.primitive (.string s)) c)
  | number {v : Value T} {n} (h : v.number? = some n) : ValueSafe v
  | bits {b c} : ValueSafe (.mk (.bitSequence b) c)
  | named {fs : List (Str × Value T)} {c} (first : ∀ p, fs.head? = some p → p.1 ≠ "__bitvec__values__".toList) (h : ∀ p ∈ fs, ValueSafe p.2) :
      ValueSafe (.mk (.composite (.named fs)) c)
  | unnamed {vs c} (h : ∀ v ∈ vs, ValueSafe v) : ValueSafe (.mk (.composite (.unnamed vs)) c)

end SV
