import Verif.Spec.ReadAs
import Verif.Spec.DeFault
/-
Specification of the error of `from_value`: a relation between Rust types, values and errors, defined by itself: no function of the model that reads something occurs in it.
(`ReadAs` says what can be read; `ShownAs` what a value is called in a message; `Refuses` what values say themselves.)
-/
namespace SV

variable {T : Type}

/-- What a type says that it expects. -/
def Ty.expects : Ty → Expect
  | .bool => .bool
  | .num t => .num t
  | .char => .char
  | .string => .string
  | .bytes => .bytes
  | .unit => .unit
  | .unitStruct => .unit
  | .option _ => .option
  | .newtype _ => .newtype
  | .seq _ => .seq
  | .tuple _ => .tuple
  | .tupleStruct _ => .tuple
  | .struct _ => .struct
  | .enum _ => .enum
  | .map _ _ => .map
  | .value => .value

/-- A bit is of an invalid type unless `bool` or `Value` is asked for. -/
inductive BitFault (b : Bool) (t : Ty) : DeErr → Prop
  | mk (h1 : t ≠ .bool) (h2 : t ≠ .value) : BitFault b t (.invalidType (.bool b) t.expects)

/-- The types that bits can be read as. -/
def Ty.ofBit (t : Ty) : Prop := t = .bool ∨ t = .value

/-- The error of reading bits as types, one each: the first that is of an invalid type; else there are too few or too many. -/
inductive BitsListFault (ts : List Ty) (x : Expect) (bs : List Bool) : DeErr → Prop
  | bit {t b e} {i : Nat} (ht : ts[i]? = some t) (hb : bs[i]? = some b) (fine : ∀ u ∈ ts.take i, u.ofBit) (bad : BitFault b t e) : BitsListFault ts x bs e
  | short (fine : ∀ u ∈ ts.take bs.length, u.ofBit) (h : bs.length < ts.length) : BitsListFault ts x bs (.invalidLength bs.length x)
  | long (fine : ∀ u ∈ ts, u.ofBit) (h : ts.length < bs.length) : BitsListFault ts x bs .leftover

/-- The error of reading the bits of a bit sequence, as the field `__bitvec__values__` of a struct. -/
inductive BitsFault (bs : List Bool) : Ty → DeErr → Prop
  | tuple {ts e} (h : BitsListFault ts .tuple bs e) : BitsFault bs (.tuple ts) e
  | tupleStruct {ts e} (h : BitsListFault ts .tuple bs e) : BitsFault bs (.tupleStruct ts) e
  | struct {fs : List (Str × Ty)} {e} (h : BitsListFault (fs.map (fun f => f.2)) .struct bs e) : BitsFault bs (.struct fs) e
  | newtype {t e} (h : BitsListFault [t] .newtype bs e) : BitsFault bs (.newtype t) e
  | seq {t b e} (first : bs.head? = some b) (bad : BitFault b t e) : BitsFault bs (.seq t) e
  | bytes {b e} (first : bs.head? = some b) (bad : BitFault b (.num .u8) e) : BitsFault bs .bytes e
  | other {t} (h : t = .bool ∨ (∃ n, t = .num n) ∨ t = .char ∨ t = .string ∨ t = .unit ∨ t = .unitStruct ∨ (∃ u, t = .option u) ∨ (∃ vs, t = .enum vs) ∨ ∃ c u, t = .map c u) :
      BitsFault bs t (.invalidType .seq t.expects)

/-- The value can be read as the type. -/
def Readable (t : Ty) (v : Value T) : Prop := ∃ d, ReadAs t v d

/-- There is nothing wrong with these entries for a struct with the fields `fs`: no field comes twice, and each entry of a field can be read. -/
def FineEntries (fs : List (Str × Ty)) (ps : List (Str × Value T)) : Prop :=
  (∀ f ∈ fs, (ps.filter (fun p => decide (p.1 = f.1))).length ≤ 1) ∧ ∀ p ∈ ps, ∀ t, (p.1, t) ∈ fs → Readable t p.2

/-- `n` is the first field, in the order of the type, that is missing: it is not among the names, and not an `Option`. -/
def FirstMissing (fs : List (Str × Ty)) (names : List Str) (n : Str) : Prop :=
  ∃ pre t post, fs = pre ++ (n, t) :: post ∧ n ∉ names ∧ (∀ u, t ≠ .option u) ∧ ∀ f ∈ pre, f.1 ∈ names ∨ ∃ u, f.2 = .option u

/-- `ReadFault t v e`: the value `v` cannot be read as the Rust type `t`, and the error is `e`. -/
inductive ReadFault : Ty → Value T → DeErr → Prop
  | bool {v u} (h : ∀ b, v.value ≠ .primitive (.bool b)) (shown : ShownAs v u) : ReadFault .bool v (.invalidType u .bool)
  /-- A string that is not one character. -/
  | charString {v s} (h : v.value = .primitive (.string s)) (len : s.length ≠ 1) : ReadFault .char v (.invalidValue (.str s) .char)
  | char {v u} (h1 : ∀ s, v.value ≠ .primitive (.string s)) (h2 : ∀ c, v.value ≠ .primitive (.char c)) (shown : ShownAs v u) : ReadFault .char v (.invalidType u .char)
  /-- A 256 bit number whose bytes are not UTF-8. -/
  | string256 {v} {b : Bytes32} (h : v.value = .primitive (.u256 b) ∨ v.value = .primitive (.i256 b)) (utf8 : ∀ s, b.bytes ≠ utf8Bytes s) :
      ReadFault .string v (.invalidValue (.bytes b.bytes) .string)
  | string {v u} (h1 : ∀ s, v.value ≠ .primitive (.string s)) (h2 : ∀ c, v.value ≠ .primitive (.char c)) (h3 : ∀ b, v.value ≠ .primitive (.u256 b))
      (h4 : ∀ b, v.value ≠ .primitive (.i256 b)) (shown : ShownAs v u) : ReadFault .string v (.invalidType u .string)
  /-- A number that `u128` or `i128` does not hold. -/
  | wide {t v n u} (h : v.number? = some n) (fits : ¬ t.Holds n) (ty : t = .u128 ∨ t = .i128) (shown : ShownAs v u) : ReadFault (.num t) v (.invalidValue u (.num t))
  /-- A number that another type does not hold, or something else. -/
  | num {t v u} (h : ∀ n, v.number? = some n → ¬ t.Holds n ∧ t ≠ .u128 ∧ t ≠ .i128) (shown : ShownAs v u) : ReadFault (.num t) v (.invalidType u (.num t))
  | bytesRefused {v r} (h : Refuses v .bytes r) : ReadFault .bytes v (.refused r)
  | bytes {v u} (h : (∃ b, v.value = .primitive (.bool b)) ∨ v.number? ≠ none ∨ ∃ x, v.value = .variant x) (shown : ShownAs v u) : ReadFault .bytes v (.invalidType u .bytes)
  | unitRefused {v r} (h : Refuses v .unit r) : ReadFault .unit v (.refused r)
  | unit {v p u} (h : v.value = .primitive p) (shown : ShownAs v u) : ReadFault .unit v (.invalidType u .unit)
  | unitStructRefused {v r} (h : Refuses v .unitStruct r) : ReadFault .unitStruct v (.refused r)
  | unitStruct {v p u} (h : v.value = .primitive p) (shown : ShownAs v u) : ReadFault .unitStruct v (.invalidType u .unit)
  | some {t v w e} (h : v.value = .variant (.mk "Some".toList (.unnamed [w]))) (sub : ReadFault t w e) : ReadFault (.option t) v e
  | option {t v u} (h1 : ∀ w, v.value ≠ .variant (.mk "Some".toList (.unnamed [w]))) (h2 : v.value ≠ .variant (.mk "None".toList (.unnamed []))) (shown : ShownAs v u) :
      ReadFault (.option t) v (.invalidType u .option)
  | newtypeBits {t v b} (h : v.value = .bitSequence b) : ReadFault (.newtype t) v (.refused .bitsNewtype)
  | newtype {t v e} (h : (∃ f, v.value = .composite f) ∨ ∃ p, v.value = .primitive p) (sub : ReadFault t v e) : ReadFault (.newtype t) v e
  | newtypeVariant {t v x e} (h : v.value = .variant x) (opt : ∀ u, t ≠ .option u) (str : ∀ fs, t ≠ .struct fs) (sub : ReadFault t v e) : ReadFault (.newtype t) v e
  | newtypeOption {t v x} (h : v.value = .variant x) : ReadFault (.newtype (.option t)) v (.invalidType .enum .option)
  | newtypeFields {fs v n f c e} (h : v.value = .variant (.mk n f)) (sub : ReadFault (.struct fs) (.mk (.composite f) c) e) : ReadFault (.newtype (.struct fs)) v e
  /-- The first value that cannot be read. -/
  | seq {t v c pre w post e} (h : v.fields? = some c) (split : c.vals = pre ++ w :: post) (fine : ∀ x ∈ pre, Readable t x) (sub : ReadFault t w e) : ReadFault (.seq t) v e
  | seqBits {t v b} (h : v.value = .bitSequence b) : ReadFault (.seq t) v (.refused .bitsSeq)
  | seqOther {t v p u} (h : v.value = .primitive p) (shown : ShownAs v u) : ReadFault (.seq t) v (.invalidType u .seq)
  /-- A wrong number of values, or a bit sequence. -/
  | tupleRefused {ts v r} (h : Refuses v (.tuple ts.length) r) : ReadFault (.tuple ts) v (.refused r)
  | tuple {ts v c t w e} {i : Nat} (h : v.fields? = some c) (size : c.vals.length = ts.length) (ht : ts[i]? = some t) (hw : c.vals[i]? = some w)
      (fine : ∀ j u x, j < i → ts[j]? = some u → c.vals[j]? = some x → Readable u x) (sub : ReadFault t w e) : ReadFault (.tuple ts) v e
  | tupleOther {ts v p u} (h : v.value = .primitive p) (shown : ShownAs v u) : ReadFault (.tuple ts) v (.invalidType u .tuple)
  | tupleStructRefused {ts v r} (h : Refuses v (.tupleStruct ts.length) r) : ReadFault (.tupleStruct ts) v (.refused r)
  | tupleStruct {ts v c t w e} {i : Nat} (h : v.fields? = some c) (size : c.vals.length = ts.length) (ht : ts[i]? = some t) (hw : c.vals[i]? = some w)
      (fine : ∀ j u x, j < i → ts[j]? = some u → c.vals[j]? = some x → Readable u x) (sub : ReadFault t w e) : ReadFault (.tupleStruct ts) v e
  | tupleStructOther {ts v p u} (h : v.value = .primitive p) (shown : ShownAs v u) : ReadFault (.tupleStruct ts) v (.invalidType u .tuple)
  /-- The first entry that is at fault repeats a field .. -/
  | structTwice {fs : List (Str × Ty)} {v pre n w post t} (h : v.value = .composite (.named (pre ++ (n, w) :: post))) (fine : FineEntries fs pre)
      (field : (n, t) ∈ fs) (twice : n ∈ pre.map (fun p => p.1)) : ReadFault (.struct fs) v (.duplicateField n)
  /-- .. or cannot be read; .. -/
  | structEntry {fs : List (Str × Ty)} {v pre n w post t e} (h : v.value = .composite (.named (pre ++ (n, w) :: post))) (fine : FineEntries fs pre)
      (field : (n, t) ∈ fs) (once : n ∉ pre.map (fun p => p.1)) (sub : ReadFault t w e) : ReadFault (.struct fs) v e
  /-- .. if there is none, a field is missing. -/
  | structMissing {fs : List (Str × Ty)} {v ps n} (h : v.value = .composite (.named ps)) (fine : FineEntries fs ps) (missing : FirstMissing fs (ps.map (fun p => p.1)) n) :
      ReadFault (.struct fs) v (.missingField n)
  | structInOrder {fs : List (Str × Ty)} {v vs f w e} {i : Nat} (h : v.value = .composite (.unnamed vs)) (hf : fs[i]? = some f) (hw : vs[i]? = some w)
      (fine : ∀ j u x, j < i → fs[j]? = some u → vs[j]? = some x → Readable u.2 x) (sub : ReadFault f.2 w e) : ReadFault (.struct fs) v e
  | structShort {fs : List (Str × Ty)} {v vs} (h : v.value = .composite (.unnamed vs)) (fine : ∀ (j : Nat) u x, fs[j]? = some u → vs[j]? = some x → Readable u.2 x)
      (short : vs.length < fs.length) : ReadFault (.struct fs) v (.invalidLength vs.length .struct)
  | structBits {fs : List (Str × Ty)} {v bs t e} (h : v.value = .bitSequence bs) (field : ("__bitvec__values__".toList, t) ∈ fs) (bad : BitsFault bs t e) : ReadFault (.struct fs) v e
  | structBitsMissing {fs : List (Str × Ty)} {v bs n} (h : v.value = .bitSequence bs) (fine : ∀ t, ("__bitvec__values__".toList, t) ∈ fs → ∃ d, BitsAs bs t d)
      (missing : FirstMissing fs ["__bitvec__values__".toList] n) : ReadFault (.struct fs) v (.missingField n)
  | structOther {fs : List (Str × Ty)} {v u} (h : (∃ x, v.value = .variant x) ∨ ∃ p, v.value = .primitive p) (shown : ShownAs v u) :
      ReadFault (.struct fs) v (.invalidType u .struct)
  | enumUnknown {vs : List (Str × VTy)} {v n f} (h : v.value = .variant (.mk n f)) (unknown : n ∉ vs.map (fun p => p.1)) : ReadFault (.enum vs) v (.unknownVariant n)
  | enumUnit {pre post : List (Str × VTy)} {v n f} (h : v.value = .variant (.mk n f)) (first : n ∉ pre.map (fun p => p.1)) (full : f.vals ≠ []) :
      ReadFault (.enum (pre ++ (n, .unit) :: post)) v (.refused .nonEmptyUnit)
  | enumNewtype {pre post : List (Str × VTy)} {v n f t c e} (h : v.value = .variant (.mk n f)) (first : n ∉ pre.map (fun p => p.1))
      (sub : ReadFault t (.mk (.composite f) c) e) : ReadFault (.enum (pre ++ (n, .newtype t) :: post)) v e
  | enumTuple {pre post : List (Str × VTy)} {v n f ts c e} (h : v.value = .variant (.mk n f)) (first : n ∉ pre.map (fun p => p.1))
      (sub : ReadFault (.tuple ts) (.mk (.composite f) c) e) : ReadFault (.enum (pre ++ (n, .tuple ts) :: post)) v e
  | enumStruct {pre post : List (Str × VTy)} {v n f fs c e} (h : v.value = .variant (.mk n f)) (first : n ∉ pre.map (fun p => p.1))
      (sub : ReadFault (.struct fs) (.mk (.composite f) c) e) : ReadFault (.enum (pre ++ (n, .struct fs) :: post)) v e
  | enumBits {vs : List (Str × VTy)} {v b} (h : v.value = .bitSequence b) : ReadFault (.enum vs) v (.refused .bitsEnum)
  | enumOther {vs : List (Str × VTy)} {v u} (h : (∃ c, v.value = .composite c) ∨ ∃ p, v.value = .primitive p) (shown : ShownAs v u) : ReadFault (.enum vs) v (.invalidType u .enum)
  /-- The first entry that is at fault: its key is not a character, .. -/
  | mapKey {t v} {l pre : List (Str × Value T)} {k w post} (h : v.fields? = some (.named l)) (split : l = pre ++ (k, w) :: post)
      (fine : ∀ p ∈ pre, p.1.length = 1 ∧ Readable t p.2) (bad : k.length ≠ 1) : ReadFault (.map true t) v (.invalidValue (.str k) .char)
  /-- .. or its value cannot be read. -/
  | mapValue {chars t v} {l pre : List (Str × Value T)} {k w post e} (h : v.fields? = some (.named l)) (split : l = pre ++ (k, w) :: post)
      (fine : ∀ p ∈ pre, (chars = true → p.1.length = 1) ∧ Readable t p.2) (key : chars = true → k.length = 1) (sub : ReadFault t w e) : ReadFault (.map chars t) v e
  | mapUnnamed {chars t v vs} (h : v.fields? = some (.unnamed vs)) : ReadFault (.map chars t) v (.invalidType .seq .map)
  | mapBits {chars t v b} (h : v.value = .bitSequence b) : ReadFault (.map chars t) v (.refused .bitsMap)
  | mapOther {chars t v p u} (h : v.value = .primitive p) (shown : ShownAs v u) : ReadFault (.map chars t) v (.invalidType u .map)
  /-- A named composite that begins with `__bitvec__values__` is taken for a bit sequence. -/
  | valueBits {v x ps e} (h : v.value = .composite (.named (("__bitvec__values__".toList, x) :: ps))) (sub : ReadFault (.seq .bool) x e) : ReadFault .value v e
  /-- Otherwise the error is that of the first value in it that cannot be read. -/
  | value {v c pre w post e} (h : ∀ x ps, v.value ≠ .composite (.named (("__bitvec__values__".toList, x) :: ps))) (fields : v.fields? = some c) (split : c.vals = pre ++ w :: post)
      (fine : ∀ x ∈ pre, Readable .value x) (sub : ReadFault .value w e) : ReadFault .value v e

end SV
