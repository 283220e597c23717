import Verif.Model.DeErr
import Verif.Spec.Serde
/-
Specification of the errors of `from_value`: what a value is called in an error message, when a value refuses to be read, and which of several things that are wrong is reported.
-/
namespace SV

variable {T : Type}

mutual
/-- Types as Rust has them: the names of the fields of a struct, or of a variant, do not repeat. -/
def Ty.Proper : Ty → Prop
  | .option t => t.Proper
  | .newtype t => t.Proper
  | .seq t => t.Proper
  | .map _ t => t.Proper
  | .tuple ts => Ty.ProperAll ts
  | .tupleStruct ts => Ty.ProperAll ts
  | .struct fs => (fs.map (fun f => f.1)).Nodup ∧ Ty.ProperFields fs
  | .enum vs => Ty.ProperVariants vs
  | .bool => True
  | .num _ => True
  | .char => True
  | .string => True
  | .bytes => True
  | .unit => True
  | .unitStruct => True
  | .value => True
termination_by structural t => t
/-- All of the types are proper. -/
def Ty.ProperAll : List Ty → Prop
  | [] => True
  | t :: ts => t.Proper ∧ Ty.ProperAll ts
/-- The types of all of the fields are proper. -/
def Ty.ProperFields : List (Str × Ty) → Prop
  | [] => True
  | (_, t) :: fs => t.Proper ∧ Ty.ProperFields fs
/-- All of the variants are proper. -/
def Ty.ProperVariants : List (Str × VTy) → Prop
  | [] => True
  | (_, v) :: vs => v.Proper ∧ Ty.ProperVariants vs
/-- The same for a variant. -/
def VTy.Proper : VTy → Prop
  | .unit => True
  | .newtype t => t.Proper
  | .tuple ts => Ty.ProperAll ts
  | .struct fs => (fs.map (fun f => f.1)).Nodup ∧ Ty.ProperFields fs
end

/-- What a value is called in an error message that says that it is of an invalid type: numbers, strings (also characters) and 256 bit numbers (byte arrays) by what they are, composites
and bit sequences (maps) by their kind. -/
inductive ShownAs (v : Value T) : Unexp → Prop
  | bool {b} (h : v.value = .primitive (.bool b)) : ShownAs v (.bool b)
  | char {c} (h : v.value = .primitive (.char c)) : ShownAs v (.str [c])
  | string {s} (h : v.value = .primitive (.string s)) : ShownAs v (.str s)
  | u128 {n} {x : Num} (h : v.value = .primitive (.u128 n)) (ty : x.ty = .u128) (same : x.val = n.val) : ShownAs v (.num x)
  | i128 {n} {x : Num} (h : v.value = .primitive (.i128 n)) (ty : x.ty = .i128) (same : x.val = n.val) : ShownAs v (.num x)
  | u256 {b} (h : v.value = .primitive (.u256 b)) : ShownAs v (.bytes b.bytes)
  | i256 {b} (h : v.value = .primitive (.i256 b)) : ShownAs v (.bytes b.bytes)
  | unnamed {vs} (h : v.value = .composite (.unnamed vs)) : ShownAs v .seq
  | named {fs} (h : v.value = .composite (.named fs)) : ShownAs v .map
  | variant {x} (h : v.value = .variant x) : ShownAs v .enum
  | bits {b} (h : v.value = .bitSequence b) : ShownAs v .map

/-- The value is an unsigned number that is a byte. -/
def IsByte (v : Value T) : Prop := ∃ n, v.value = .primitive (.u128 n) ∧ n.val < 256

/-- `Refuses v h e`: asked for `h`, the value returns the error `e` whatever the visitor. -/
inductive Refuses (v : Value T) : Hint → Refusal → Prop
  | bitsNewtype {b} (h : v.value = .bitSequence b) : Refuses v .newtypeStruct .bitsNewtype
  | bitsTuple {b n} (h : v.value = .bitSequence b) : Refuses v (.tuple n) .bitsTuple
  | bitsTupleStruct {b n} (h : v.value = .bitSequence b) : Refuses v (.tupleStruct n) .bitsTupleStruct
  | bitsUnit {b} (h : v.value = .bitSequence b) : Refuses v .unit .bitsUnit
  | bitsUnitStruct {b} (h : v.value = .bitSequence b) : Refuses v .unitStruct .bitsUnitStruct
  | bitsEnum {b} (h : v.value = .bitSequence b) : Refuses v .enum .bitsEnum
  | bitsBytes {b} (h : v.value = .bitSequence b) : Refuses v .bytes .bitsBytes
  | bitsSeq {b} (h : v.value = .bitSequence b) : Refuses v .seq .bitsSeq
  | bitsMap {b} (h : v.value = .bitSequence b) : Refuses v .map .bitsMap
  | tuple {c n} (fields : v.fields? = some c) (len : c.vals.length ≠ n) : Refuses v (.tuple n) (.tupleLength c.vals.length n)
  | tupleStruct {c n} (fields : v.fields? = some c) (len : c.vals.length ≠ n) : Refuses v (.tupleStruct n) (.tupleLength c.vals.length n)
  | unit {c} (fields : v.fields? = some c) (len : c.vals ≠ []) : Refuses v .unit .nonEmptyUnit
  | unitStruct {c} (fields : v.fields? = some c) (len : c.vals ≠ []) : Refuses v .unitStruct .nonEmptyUnit
  | byteRange {c pre w post n} (h : v.value = .composite c) (split : c.vals = pre ++ w :: post) (bytes : ∀ x ∈ pre, IsByte x)
      (num : w.value = .primitive (.u128 n)) (big : 256 ≤ n.val) : Refuses v .bytes .byteRange
  | notNumber {c pre w post} (h : v.value = .composite c) (split : c.vals = pre ++ w :: post) (bytes : ∀ x ∈ pre, IsByte x)
      (num : ∀ n, w.value ≠ .primitive (.u128 n)) : Refuses v .bytes .byteNonNumeric

/-- `FirstError f l e`: `e` is the error of the first element of `l` for which `f` fails. -/
def FirstError {A B : Type} (f : A → Except DeErr B) (l : List A) (e : DeErr) : Prop :=
  ∃ pre x post, l = pre ++ x :: post ∧ (∀ y ∈ pre, ∃ b, f y = .ok b) ∧ f x = .error e

/-- `NoError f l`: `f` succeeds on all elements. -/
def NoError {A B : Type} (f : A → Except DeErr B) (l : List A) : Prop := ∀ x ∈ l, ∃ b, f x = .ok b

/-- There is nothing wrong with the entries that have the name of a field: no name comes twice, and all of them can be read. -/
def EntriesFine (fs : List (Str × Ty)) (es : List (Str × Der)) : Prop :=
  (∀ f ∈ fs, (es.filter (fun p => decide (p.1 = f.1))).length ≤ 1) ∧ ∀ p ∈ es, ∀ t, (p.1, t) ∈ fs → ∃ x, t.deE p.2 = .ok x

/-- `StructFault fs es e`: the error when a struct with the fields `fs` is read from the entries `es`. The first entry that repeats the name of a field, or cannot be read as the type of that
field, is at fault; if there is none, the first field, in the order of the type, that has no entry and is not an `Option`. Entries without a field do not matter. -/
inductive StructFault (fs : List (Str × Ty)) (es : List (Str × Der)) : DeErr → Prop
  | duplicate {pre n d post t} (split : es = pre ++ (n, d) :: post) (fine : EntriesFine fs pre) (field : (n, t) ∈ fs) (twice : n ∈ pre.map (fun p => p.1)) :
      StructFault fs es (.duplicateField n)
  | entry {pre n d post t e} (split : es = pre ++ (n, d) :: post) (fine : EntriesFine fs pre) (field : (n, t) ∈ fs) (once : n ∉ pre.map (fun p => p.1))
      (bad : t.deE d = .error e) : StructFault fs es e
  | missing {pre n t post} (fine : EntriesFine fs es) (split : fs = pre ++ (n, t) :: post) (absent : n ∉ es.map (fun p => p.1)) (needed : ∀ u, t ≠ .option u)
      (first : ∀ f ∈ pre, f.1 ∈ es.map (fun p => p.1) ∨ ∃ u, f.2 = .option u) : StructFault fs es (.missingField n)

/-- The error of reading the entry `p` of a composite that is read as a `Variant`: a name that is not a string, values that are not a composite, or an entry of another name. -/
inductive VariantEntryFault (p : Str × Value T) : DeErr → Prop
  | name {e} (h : p.1 = "name".toList) (bad : deStringE p.2.der = .error e) : VariantEntryFault p e
  | values {e} (h : p.1 = "values".toList) (bad : deCompositeE p.2.der = .error e) : VariantEntryFault p e
  | other (h1 : p.1 ≠ "name".toList) (h2 : p.1 ≠ "values".toList) : VariantEntryFault p (.unknownField p.1)

/-- The error of reading the contents of a variant, as a composite. -/
def VariantError (vt : VTy) (f : Value T) (e : DeErr) : Prop :=
  match vt with
  | .unit => Ty.unit.deE f.der = .error e
  | .newtype t => t.deE f.der = .error e
  | .tuple ts => (Ty.tuple ts).deE f.der = .error e
  | .struct fs => (Ty.struct fs).deE f.der = .error e

/-- The error of an entry of a map: a key that has to be a character and is not, or the value. -/
def mapEntryE (chars : Bool) (t : Ty) (p : Str × Value T) : Except DeErr Dat :=
  if chars = true ∧ p.1.length ≠ 1 then .error (.invalidValue (.str p.1) .char) else t.deE p.2.der

end SV
