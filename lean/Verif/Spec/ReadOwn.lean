import Verif.Spec.ReadFault
/-
Specification of reading the types of this library other than `Value` from values: `Composite`, `Variant` and `Primitive`, what is read and which error there is.
(`Back` is reading a `Value`; `ReadAs` and `ReadFault` are reading other types.)
-/
namespace SV

variable {T : Type}

/-- `CompositeBack v g`: reading the value `v` as a `Composite` gives `g`. (A named composite is not taken for a bit sequence here, and a bit sequence is a named composite.) -/
inductive CompositeBack : Value T → Composite Unit → Prop
  | unnamed {vs : List (Value T)} {ws c} (len : vs.length = ws.length)
      (sub : ∀ (i : Nat) (x : Value T) (y : Value Unit), vs[i]? = some x → ws[i]? = some y → Back x y) : CompositeBack (.mk (.composite (.unnamed vs)) c) (.unnamed ws)
  | named {fs : List (Str × Value T)} {gs c} (names : fs.map (fun p => p.1) = gs.map (fun p => p.1))
      (sub : ∀ (i : Nat) (x : Str × Value T) (y : Str × Value Unit), fs[i]? = some x → gs[i]? = some y → Back x.2 y.2) : CompositeBack (.mk (.composite (.named fs)) c) (.named gs)
  | bits {b c ws} (h : BoolList ws b) : CompositeBack (.mk (.bitSequence b) c) (.named [("__bitvec__values__".toList, .mk (.composite (.unnamed ws)) ())])
  | u256 {b : Bytes32} {c ws} (h : ByteList b.bytes ws) : CompositeBack (.mk (.primitive (.u256 b)) c) (.unnamed ws)
  | i256 {b : Bytes32} {c ws} (h : ByteList b.bytes ws) : CompositeBack (.mk (.primitive (.i256 b)) c) (.unnamed ws)

/-- `w` is the last of the entries with the given name. -/
def LastOfName (ps : List (Str × Value T)) (name : Str) (w : Value T) : Prop := ∃ pre post, ps = pre ++ (name, w) :: post ∧ name ∉ post.map (fun p => p.1)

/-- `VariantBack v x`: reading the value `v` as a `Variant` gives `x`. -/
inductive VariantBack : Value T → Variant Unit → Prop
  | variant {n f c g} (h : CompositeBack (.mk (.composite f) c) g) : VariantBack (.mk (.variant (.mk n f)) c) (.mk n g)
  /-- Named composites whose entries are all called `name` (and can be read as strings) or `values` (and can be read as composites), with at least one of each; the last counts. -/
  | named {ps : List (Str × Value T)} {c x y n g}
      (all : ∀ p ∈ ps, (p.1 = "name".toList ∧ ∃ s, ReadAs .string p.2 (.str s)) ∨ (p.1 = "values".toList ∧ ∃ g, CompositeBack p.2 g))
      (name : LastOfName ps "name".toList x) (hn : ReadAs .string x (.str n)) (values : LastOfName ps "values".toList y) (hg : CompositeBack y g) :
      VariantBack (.mk (.composite (.named ps)) c) (.mk n g)

/-- `PrimitiveBack v p`: reading the value `v` as a `Primitive` gives `p`. -/
inductive PrimitiveBack : Value T → Primitive → Prop
  | prim {p c} (h : ∀ b, p ≠ .i256 b) : PrimitiveBack (.mk (.primitive p) c) p
  /-- Signed 256 bit numbers are taken for unsigned ones. -/
  | i256 {b c} : PrimitiveBack (.mk (.primitive (.i256 b)) c) (.u256 b)
  /-- 32 numbers from 0 to 255. -/
  | bytes {vs : List (Value T)} {b : Bytes32} {c} (len : vs.length = 32) (each : ∀ (i : Nat) w y, vs[i]? = some w → b.bytes[i]? = some y → w.number? = some (y.toNat : Int)) :
      PrimitiveBack (.mk (.composite (.unnamed vs)) c) (.u256 b)

/-- The error of reading a value as a `Composite`: of the first value in it that cannot be read; and variants and primitives (but for 256 bit numbers) are of an invalid type. -/
inductive CompositeWrong : Value T → DeErr → Prop
  | part {v c pre w post e} (h : v.value = .composite c) (split : c.vals = pre ++ w :: post) (fine : ∀ x ∈ pre, Readable .value x) (sub : ReadFault .value w e) : CompositeWrong v e
  | variant {v x} (h : v.value = .variant x) : CompositeWrong v (.invalidType .enum .composite)
  | prim {v p u} (h : v.value = .primitive p) (other : ∀ b, p ≠ .u256 b ∧ p ≠ .i256 b) (shown : ShownAs v u) : CompositeWrong v (.invalidType u .composite)

/-- There is nothing wrong with the entry of a variant in the form of a named composite: .. -/
def EntryFine (p : Str × Value T) : Prop :=
  (p.1 = "name".toList ∧ ∃ s, ReadAs .string p.2 (.str s)) ∨ (p.1 = "values".toList ∧ ∃ g, CompositeBack p.2 g)

/-- .. or there is. -/
inductive EntryWrong : Str × Value T → DeErr → Prop
  | name {w e} (h : ReadFault .string w e) : EntryWrong ("name".toList, w) e
  | values {w e} (h : CompositeWrong w e) : EntryWrong ("values".toList, w) e
  | other {n w} (h1 : n ≠ "name".toList) (h2 : n ≠ "values".toList) : EntryWrong (n, w) (.unknownField n)

/-- The error of reading a value as a `Variant`. -/
inductive VariantWrong : Value T → DeErr → Prop
  | part {v n f c e} (h : v.value = .variant (.mk n f)) (sub : CompositeWrong (.mk (.composite f) c) e) : VariantWrong v e
  | entry {v pre p post e} (h : v.value = .composite (.named (pre ++ p :: post))) (fine : ∀ q ∈ pre, EntryFine q) (bad : EntryWrong p e) : VariantWrong v e
  | missing {v ps} (h : v.value = .composite (.named ps)) (fine : ∀ q ∈ ps, EntryFine q)
      (none : "name".toList ∉ ps.map (fun p => p.1) ∨ "values".toList ∉ ps.map (fun p => p.1)) : VariantWrong v .noNameAndValues
  | bits {v b} (h : v.value = .bitSequence b) : VariantWrong v (.unknownField "__bitvec__values__".toList)
  | unnamed {v vs} (h : v.value = .composite (.unnamed vs)) : VariantWrong v (.invalidType .seq .variant)
  | prim {v p u} (h : v.value = .primitive p) (shown : ShownAs v u) : VariantWrong v (.invalidType u .variant)

/-- The error of reading a value as a `Primitive`. -/
inductive PrimitiveWrong : Value T → DeErr → Prop
  | part {v vs pre w post e} (h : v.value = .composite (.unnamed vs)) (split : vs = pre ++ w :: post) (fine : ∀ x ∈ pre, Readable (.num .u8) x) (sub : ReadFault (.num .u8) w e) :
      PrimitiveWrong v e
  | length {v vs} (h : v.value = .composite (.unnamed vs)) (fine : ∀ x ∈ vs, Readable (.num .u8) x) (len : vs.length ≠ 32) : PrimitiveWrong v (.invalidLength vs.length .bytes32)
  | variant {v x} (h : v.value = .variant x) : PrimitiveWrong v (.invalidType .enum .primitive)
  | named {v ps} (h : v.value = .composite (.named ps)) : PrimitiveWrong v (.invalidType .map .primitive)
  | bits {v b} (h : v.value = .bitSequence b) : PrimitiveWrong v (.invalidType .map .primitive)

end SV
