import Verif.Spec.Emit
import Mathlib.Data.List.Forall2
/-
The rules of encoding, all of them: to what a value encodes at a type, given to what the values in it encode. Nothing of the encoder's functions is used.
-/
namespace SV

variable {Id Γ : Type}

/-- A relation that says to which bytes a value encodes at a type. -/
abbrev EncRel (Id Γ : Type) := Value Γ → Id → List UInt8 → Prop

/-- Values one after the other, each at its type. -/
inductive AllBy (E : EncRel Id Γ) : List Id → List (Value Γ) → List UInt8 → Prop
  | nil : AllBy E [] [] []
  | cons {t ts v vs bs bs'} : E v t bs → AllBy E ts vs bs' → AllBy E (t :: ts) (v :: vs) (bs ++ bs')

/-- Fields in their order, each with the last value of its name. (A field without a name, among those with names, goes by the empty name.) -/
inductive NamedBy (E : EncRel Id Γ) (l : List (Str × Value Γ)) : List (Field Id) → List UInt8 → Prop
  | nil : NamedBy E l [] []
  | cons {f fs v bs bs'} : LastNamed l (f.name.getD []) v → E v f.id bs → NamedBy E l fs bs' → NamedBy E l (f :: fs) (bs ++ bs')

/-- The values of a composite for a list of fields: by name if there are names on both sides, else in order, as many as there are fields. -/
inductive FieldsBy (E : EncRel Id Γ) : Composite Γ → List (Field Id) → List UInt8 → Prop
  | byName {l fs bs} : l ≠ [] → (∃ f ∈ fs, f.name ≠ none) → NamedBy E l fs bs → FieldsBy E (.named l) fs bs
  | byOrder {c fs bs} : ((∃ vs, c = .unnamed vs) ∨ c = .named [] ∨ ∀ f ∈ fs, f.name = none) → AllBy E (fs.map (fun f => f.id)) c.vals bs → FieldsBy E c fs bs

/-- A struct or a tuple. -/
def StructLike (reg : Reg Id) (t : Id) : Prop := (∃ fs, reg.resolve t = some (.composite fs)) ∨ ∃ ts, reg.resolve t = some (.tuple ts)

/-- A composite at a type, without looking through all wrappers. -/
inductive DirectBy (reg : Reg Id) (E : EncRel Id Γ) (c : Composite Γ) (t : Id) : List UInt8 → Prop
  /-- At a struct: its fields. Wrappers without names are looked through. -/
  | struct {w fs bs} : StructLike reg t → Unwrapped reg t w → reg.resolve w = some (.composite fs) → (∀ v, c ≠ .unnamed [v]) → FieldsBy E c fs bs → DirectBy reg E c t bs
  /-- A value on its own, without a name, stands for itself at a struct. -/
  | inStruct {w fs v bs} : StructLike reg t → Unwrapped reg t w → reg.resolve w = some (.composite fs) → c = .unnamed [v] → E v w bs → DirectBy reg E c t bs
  /-- At a tuple: values in order, without regard to names. -/
  | tuple {w ts bs} : StructLike reg t → Unwrapped reg t w → reg.resolve w = some (.tuple ts) → c.vals.length ≠ 1 → AllBy E ts c.vals bs → DirectBy reg E c t bs
  /-- A value on its own stands for itself at a tuple. -/
  | inTuple {w ts v bs} : StructLike reg t → Unwrapped reg t w → reg.resolve w = some (.tuple ts) → c.vals = [v] → E v w bs → DirectBy reg E c t bs
  /-- A value on its own stands for itself at what else may be in wrappers. -/
  | inWrapper {w d v bs} : StructLike reg t → Unwrapped reg t w → reg.resolve w = some d → ¬ StructLike reg w → c.vals = [v] → E v w bs → DirectBy reg E c t bs
  /-- At a sequence: the number of values, then the values. -/
  | sequence {u p bs} : reg.resolve t = some (.sequence u) → IsCompact c.vals.length p → AllBy E (List.replicate c.vals.length u) c.vals bs → DirectBy reg E c t (p ++ bs)
  /-- At an array: as many values as it has. -/
  | array {u n bs} : reg.resolve t = some (.array u n) → AllBy E (List.replicate n u) c.vals bs → DirectBy reg E c t bs
  /-- At a bit sequence: values that stand for bits. -/
  | bits {s o b p q} : reg.resolve t = some (.bitSequence s o) → List.Forall₂ IsBit c.vals b → IsCompact b.length p → IsBits True s o b q → DirectBy reg E c t (p ++ q)
  /-- A value on its own stands for itself at all other types. -/
  | other {v bs} : ¬ StructLike reg t → (∀ u, reg.resolve t ≠ some (.sequence u)) → (∀ u n, reg.resolve t ≠ some (.array u n)) →
      (∀ s o, reg.resolve t ≠ some (.bitSequence s o)) → c.vals = [v] → E v t bs → DirectBy reg E c t bs

/-- `u` is inside of any number of structs or tuples with one field. -/
inductive Peeled (reg : Reg Id) : Id → Id → Prop
  | done (t) : Peeled reg t t
  | composite {t f u} : reg.resolve t = some (.composite [f]) → Peeled reg f.id u → Peeled reg t u
  | tuple {t w u} : reg.resolve t = some (.tuple [w]) → Peeled reg w u → Peeled reg t u

/-- Bytes as numbers of a type. -/
inductive BytesBy (reg : Reg Id) (u : Id) : List UInt8 → List UInt8 → Prop
  | nil : BytesBy reg u [] []
  | cons {b l w bs bs'} : Innermost reg u w → NumAt reg false w b.toNat bs → BytesBy reg u l bs' → BytesBy reg u (b :: l) (bs ++ bs')

/-- A 256 bit number: 32 bytes, as an array or as a sequence. -/
inductive Bytes32By (reg : Reg Id) (t : Id) (b : Bytes32) : List UInt8 → Prop
  | array {u w bs} : Peeled reg t u → reg.resolve u = some (.array w 32) → BytesBy reg w b.bytes bs → Bytes32By reg t b bs
  | sequence {u w p bs} : Peeled reg t u → reg.resolve u = some (.sequence w) → IsCompact 32 p → BytesBy reg w b.bytes bs → Bytes32By reg t b (p ++ bs)

/-- To what a value encodes, if `E` says to what the values in it encode. -/
inductive StepBy (reg : Reg Id) (cc : Bool) (E : EncRel Id Γ) : Value Γ → Id → List UInt8 → Prop
  | bool {b x t u} : Innermost reg t u → reg.resolve u = some (.primitive .bool) → StepBy reg cc E (.mk (.primitive (.bool b)) x) t [if b then 1 else 0]
  | char {c : Char} {x t u bs} : Innermost reg t u → NumAt reg cc u c.toNat bs → StepBy reg cc E (.mk (.primitive (.char c)) x) t bs
  | string {s x t u p} : Innermost reg t u → reg.resolve u = some (.primitive .str) → IsCompact (utf8Bytes s).length p →
      StepBy reg cc E (.mk (.primitive (.string s)) x) t (p ++ utf8Bytes s)
  | u128 {n x t u bs} : Innermost reg t u → NumAt reg false u n.val bs → StepBy reg cc E (.mk (.primitive (.u128 n)) x) t bs
  | i128 {n x t u bs} : Innermost reg t u → NumAt reg false u n.val bs → StepBy reg cc E (.mk (.primitive (.i128 n)) x) t bs
  | u256 {b x t bs} : Bytes32By reg t b bs → StepBy reg cc E (.mk (.primitive (.u256 b)) x) t bs
  | i256 {b x t bs} : Bytes32By reg t b bs → StepBy reg cc E (.mk (.primitive (.i256 b)) x) t bs
  | bits {b x t u s o p q} : Innermost reg t u → reg.resolve u = some (.bitSequence s o) → IsCompact b.length p → IsBits True s o b q →
      StepBy reg cc E (.mk (.bitSequence b) x) t (p ++ q)
  /-- The first variant of that name counts. -/
  | variant {n c x t u before d after bs} : Innermost reg t u → reg.resolve u = some (.variant (before ++ d :: after)) → d.name = n → (∀ e ∈ before, e.name ≠ n) →
      FieldsBy E c d.fields bs → StepBy reg cc E (.mk (.variant (.mk n c)) x) t (d.index :: bs)
  /-- A composite as it is, .. -/
  | composite {c x t bs} : DirectBy reg E c t bs → StepBy reg cc E (.mk (.composite c) x) t bs
  /-- .. or if this is not possible, at what is inside of all wrappers, .. -/
  | inner {c x t u bs} : (∀ bs', ¬ DirectBy reg E c t bs') → Innermost reg t u → DirectBy reg E c u bs → StepBy reg cc E (.mk (.composite c) x) t bs
  /-- .. or if this is not possible either, a value on its own for itself. -/
  | alone {c x t u v bs} : (∀ bs', ¬ DirectBy reg E c t bs') → Innermost reg t u → (∀ bs', ¬ DirectBy reg E c u bs') → c.vals = [v] → E v u bs →
      StepBy reg cc E (.mk (.composite c) x) t bs

end SV
