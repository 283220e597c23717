import Verif.Spec.EncodeStep
import Verif.Spec.Size
import Verif.Model.EncCalls
/-
Vocabulary for how often the encoder is entered.
-/
namespace SV

variable {Id Γ : Type}

/-- The number of calls of the encoder for values that encoding `v` at the type `t` takes: one for `v`, and those for the values in it, at every attempt. -/
def Value.calls (reg : Reg Id) (charToChar : Bool) (v : Value Γ) (t : Id) : Nat := (v.encodeC reg charToChar t []).2

/-- The names of fields (a field without a name counts as having the empty one) are distinct, or no field has one. -/
def Apart (fs : List (Field Id)) : Prop := (fs.map (fun f => f.name.getD [])).Nodup ∨ ∀ f ∈ fs, f.name = none

/-- The fields of each struct and of each variant of the registry have distinct names. -/
def NamesApart (reg : Reg Id) : Prop :=
  (∀ t fs, reg.resolve t = some (.composite fs) → Apart fs) ∧ ∀ t ds, reg.resolve t = some (.variant ds) → ∀ d ∈ ds, Apart d.fields

/-- `v` in `n` composites with one value each. -/
def nest (x : Γ) : Nat → Value Γ → Value Γ
  | 0, v => v
  | n + 1, v => .mk (.composite (.unnamed [nest x n v])) x

/-- The type is not that of two wrappers or more around a sequence or around an array of length one. -/
def NoWrappedList (reg : Reg Id) (t : Id) : Prop := ∀ u w c e, Wraps reg t u → Wraps reg u w → Unwrapped reg w c →
  reg.resolve c ≠ some (.sequence e) ∧ reg.resolve c ≠ some (.array e 1)

/-- A registry in which `0` is `u8`, `1` is `Vec<u8>`, and each other number is a struct with one unnamed field of the type before: `n + 1` is
`Vec<u8>` in `n` wrappers. -/
def towerReg : Reg Nat where
  resolve
    | 0 => some (.primitive .u8)
    | 1 => some (.sequence 0)
    | n + 2 => some (.composite [⟨none, n + 1⟩])
  rank t := t
  rank_lt := by
    intro t d u h hu
    match t, h with
    | 0, h => cases h; simp [TypeDef.inline] at hu
    | 1, h => cases h; simp [TypeDef.inline] at hu
    | n + 2, h => cases h; simp [TypeDef.inline] at hu; omega

/-! ### Which values are tried -/

/-- Encoding `v` at `t` takes `n` calls, and succeeds (`true`) or fails (`false`). -/
def Trial (reg : Reg Id) (cc : Bool) (v : Value Γ) (t : Id) (ok : Bool) (n : Nat) : Prop :=
  n = v.calls reg cc t ∧ if ok then ∃ bs, Okay (v.encode reg cc t) bs else Fails (v.encode reg cc t)

/-- Values one after the other, each at its type, until one fails. -/
inductive Tries (reg : Reg Id) (cc : Bool) : List Id → List (Value Γ) → Bool → Nat → Prop
  | nil : Tries reg cc [] [] true 0
  | stop {t ts v vs n} : Trial reg cc v t false n → Tries reg cc (t :: ts) (v :: vs) false n
  | next {t ts v vs n ok m} : Trial reg cc v t true n → Tries reg cc ts vs ok m → Tries reg cc (t :: ts) (v :: vs) ok (n + m)

/-- Fields in their order, each with the last value of its name, until there is none or it fails. -/
inductive NameTries (reg : Reg Id) (cc : Bool) (l : List (Str × Value Γ)) : List (Field Id) → Bool → Nat → Prop
  | nil : NameTries reg cc l [] true 0
  | missing {f fs} : (∀ v, (f.name.getD [], v) ∉ l) → NameTries reg cc l (f :: fs) false 0
  | stop {f fs v n} : LastNamed l (f.name.getD []) v → Trial reg cc v f.id false n → NameTries reg cc l (f :: fs) false n
  | next {f fs v n ok m} : LastNamed l (f.name.getD []) v → Trial reg cc v f.id true n → NameTries reg cc l fs ok m → NameTries reg cc l (f :: fs) ok (n + m)

/-- The values of a composite for a list of fields: by name if there are names on both sides, else in order; none is tried if there are not as many as fields. -/
inductive FieldTries (reg : Reg Id) (cc : Bool) : Composite Γ → List (Field Id) → Bool → Nat → Prop
  | byName {l fs ok n} : l ≠ [] → (∃ f ∈ fs, f.name ≠ none) → NameTries reg cc l fs ok n → FieldTries reg cc (.named l) fs ok n
  | byOrder {c fs ok n} : ((∃ vs, c = .unnamed vs) ∨ c = .named [] ∨ ∀ f ∈ fs, f.name = none) → c.vals.length = fs.length →
      Tries reg cc (fs.map (fun f => f.id)) c.vals ok n → FieldTries reg cc c fs ok n
  | length {c fs} : ((∃ vs, c = .unnamed vs) ∨ c = .named [] ∨ ∀ f ∈ fs, f.name = none) → c.vals.length ≠ fs.length → FieldTries reg cc c fs false 0

/-- A composite at a type, without looking through all wrappers: the calls for the values in it. -/
inductive Attempt (reg : Reg Id) (cc : Bool) (c : Composite Γ) (t : Id) : Bool → Nat → Prop
  | struct {w fs ok n} : StructLike reg t → Unwrapped reg t w → reg.resolve w = some (.composite fs) → (∀ v, c ≠ .unnamed [v]) → FieldTries reg cc c fs ok n →
      Attempt reg cc c t ok n
  | inStruct {w fs v ok n} : StructLike reg t → Unwrapped reg t w → reg.resolve w = some (.composite fs) → c = .unnamed [v] → Trial reg cc v w ok n →
      Attempt reg cc c t ok n
  | tuple {w ts ok n} : StructLike reg t → Unwrapped reg t w → reg.resolve w = some (.tuple ts) → c.vals.length ≠ 1 → c.vals.length = ts.length →
      Tries reg cc ts c.vals ok n → Attempt reg cc c t ok n
  | tupleLength {w ts} : StructLike reg t → Unwrapped reg t w → reg.resolve w = some (.tuple ts) → c.vals.length ≠ 1 → c.vals.length ≠ ts.length →
      Attempt reg cc c t false 0
  | inTuple {w ts v ok n} : StructLike reg t → Unwrapped reg t w → reg.resolve w = some (.tuple ts) → c.vals = [v] → Trial reg cc v w ok n → Attempt reg cc c t ok n
  | inWrapper {w d v ok n} : StructLike reg t → Unwrapped reg t w → reg.resolve w = some d → ¬ StructLike reg w → c.vals = [v] → Trial reg cc v w ok n →
      Attempt reg cc c t ok n
  /-- Other values are not tried at what is in wrappers, if this is no struct or tuple. -/
  | noWrapper {w d} : StructLike reg t → Unwrapped reg t w → reg.resolve w = some d → ¬ StructLike reg w → c.vals.length ≠ 1 → Attempt reg cc c t false 0
  | missing {w} : StructLike reg t → Unwrapped reg t w → reg.resolve w = none → Attempt reg cc c t false 0
  | sequence {u ok n} : reg.resolve t = some (.sequence u) → Tries reg cc (List.replicate c.vals.length u) c.vals ok n → Attempt reg cc c t ok n
  | array {u k ok n} : reg.resolve t = some (.array u k) → c.vals.length = k → Tries reg cc (List.replicate k u) c.vals ok n → Attempt reg cc c t ok n
  | arrayLength {u k} : reg.resolve t = some (.array u k) → c.vals.length ≠ k → Attempt reg cc c t false 0
  /-- Bits are looked at and not encoded as values. -/
  | bits {s o b} : reg.resolve t = some (.bitSequence s o) → List.Forall₂ IsBit c.vals b → Attempt reg cc c t true 0
  | noBits {s o} : reg.resolve t = some (.bitSequence s o) → (∀ b, ¬ List.Forall₂ IsBit c.vals b) → Attempt reg cc c t false 0
  | other {v ok n} : ¬ StructLike reg t → (∀ u, reg.resolve t ≠ some (.sequence u)) → (∀ u n, reg.resolve t ≠ some (.array u n)) →
      (∀ s o, reg.resolve t ≠ some (.bitSequence s o)) → c.vals = [v] → Trial reg cc v t ok n → Attempt reg cc c t ok n
  | otherLength : ¬ StructLike reg t → (∀ u, reg.resolve t ≠ some (.sequence u)) → (∀ u n, reg.resolve t ≠ some (.array u n)) →
      (∀ s o, reg.resolve t ≠ some (.bitSequence s o)) → c.vals.length ≠ 1 → Attempt reg cc c t false 0

/-- The calls that encoding a value takes: one, and those for the values in it at each attempt. -/
inductive CallsBy (reg : Reg Id) (cc : Bool) : Value Γ → Id → Bool → Nat → Prop
  | leaf {v t ok} : v.fields? = none → (if ok then ∃ bs, Okay (v.encode reg cc t) bs else Fails (v.encode reg cc t)) → CallsBy reg cc v t ok 1
  | variant {s c x t u before d after ok n} : Innermost reg t u → reg.resolve u = some (.variant (before ++ d :: after)) → d.name = s → (∀ e ∈ before, e.name ≠ s) →
      FieldTries reg cc c d.fields ok n → CallsBy reg cc (.mk (.variant (.mk s c)) x) t ok (1 + n)
  | noVariant {s c x t u} : Innermost reg t u → (∀ ds, reg.resolve u = some (.variant ds) → ∀ d ∈ ds, d.name ≠ s) →
      CallsBy reg cc (.mk (.variant (.mk s c)) x) t false 1
  /-- A composite as it is, .. -/
  | direct {c x t n} : Attempt reg cc c t true n → CallsBy reg cc (.mk (.composite c) x) t true (1 + n)
  /-- .. or if this fails and the type is a wrapper, at what is inside of all wrappers, .. -/
  | inner {c x t w u n m} : Attempt reg cc c t false n → SingleEntry reg t w → Innermost reg t u → Attempt reg cc c u true m →
      CallsBy reg cc (.mk (.composite c) x) t true (1 + n + m)
  /-- .. or if this fails as well, its only value there. -/
  | innerAlone {c x t w u v n m ok k} : Attempt reg cc c t false n → SingleEntry reg t w → Innermost reg t u → Attempt reg cc c u false m → c.vals = [v] →
      Trial reg cc v u ok k → CallsBy reg cc (.mk (.composite c) x) t ok (1 + n + m + k)
  | innerStuck {c x t w u n m} : Attempt reg cc c t false n → SingleEntry reg t w → Innermost reg t u → Attempt reg cc c u false m → c.vals.length ≠ 1 →
      CallsBy reg cc (.mk (.composite c) x) t false (1 + n + m)
  /-- If the type is no wrapper and the composite fails as it is, its only value. -/
  | alone {c x t v n ok k} : Attempt reg cc c t false n → (∀ w, ¬ SingleEntry reg t w) → c.vals = [v] → Trial reg cc v t ok k →
      CallsBy reg cc (.mk (.composite c) x) t ok (1 + n + k)
  | stuck {c x t n} : Attempt reg cc c t false n → (∀ w, ¬ SingleEntry reg t w) → c.vals.length ≠ 1 → CallsBy reg cc (.mk (.composite c) x) t false (1 + n)

end SV
