import Mathlib.Logic.Relation
import Verif.Spec.Bottomless
import Verif.Model.AnyEnc
import Verif.Spec.Encode
import Verif.Spec.EncodeStep
/-
Specification: the rules of how encoding of composites and variants ends, with tables of types of any kind: with success, with an error, or never.
-/
namespace SV

variable {Id Γ : Type}

/-- How a call ends. -/
inductive Ending where
  | ok
  | fails
  | never

/-- How the call ended whose result (and the buffer) this is. -/
def ending {E A : Type} : Option (Except E Unit × A) → Ending
  | none => .never
  | some (.ok (), _) => .ok
  | some (.error _, _) => .fails

/-- Encoding `v` at `t` ends like that, whatever is in the buffer. -/
def EndsIn (res : Table Id) (cc : Bool) (v : Value Γ) (t : Id) (o : Ending) : Prop := ∀ out, ending (v.encodeT res cc t out) = o

/-- The type is a struct with one field, without a name, or a tuple of one, of type `u`. -/
inductive BareIn (res : Table Id) (t : Id) : Id → Prop
  | struct {u} (h : res t = some (.composite [⟨none, u⟩])) : BareIn res t u
  | tuple {u} (h : res t = some (.tuple [u])) : BareIn res t u

/-- `u` is what is in all wrappers of that kind. -/
def BareEnd (res : Table Id) (t u : Id) : Prop := Relation.ReflTransGen (BareIn res) t u ∧ ∀ w, ¬ BareIn res u w

/-- Wrappers of that kind without end. -/
def BareChain (res : Table Id) (t : Id) : Prop := ∃ chain : Nat → Id, chain 0 = t ∧ ∀ n, BareIn res (chain n) (chain (n + 1))

/-- `u` is what is in all wrappers. -/
def WrapsEnd (res : Table Id) (t u : Id) : Prop := Relation.ReflTransGen (WrapsIn res) t u ∧ ∀ w, ¬ WrapsIn res u w

/-- A struct or a tuple. -/
def StructIn (res : Table Id) (t : Id) : Prop := (∃ fs, res t = some (.composite fs)) ∨ ∃ ts, res t = some (.tuple ts)

/-- Values one after the other, each at its type, until one fails or does not end. -/
inductive TriesO (res : Table Id) (cc : Bool) : List Id → List (Value Γ) → Ending → Prop
  | nil : TriesO res cc [] [] .ok
  | stop {t ts v vs o} : EndsIn res cc v t o → o ≠ .ok → TriesO res cc (t :: ts) (v :: vs) o
  | next {t ts v vs o} : EndsIn res cc v t .ok → TriesO res cc ts vs o → TriesO res cc (t :: ts) (v :: vs) o

/-- Fields in their order, each with the last value of its name, until there is none, or it fails or does not end. -/
inductive NameTriesO (res : Table Id) (cc : Bool) (l : List (Str × Value Γ)) : List (Field Id) → Ending → Prop
  | nil : NameTriesO res cc l [] .ok
  | missing {f fs} : (∀ v, (f.name.getD [], v) ∉ l) → NameTriesO res cc l (f :: fs) .fails
  | stop {f fs v o} : LastNamed l (f.name.getD []) v → EndsIn res cc v f.id o → o ≠ .ok → NameTriesO res cc l (f :: fs) o
  | next {f fs v o} : LastNamed l (f.name.getD []) v → EndsIn res cc v f.id .ok → NameTriesO res cc l fs o → NameTriesO res cc l (f :: fs) o

/-- The values of a composite for a list of fields: by name if there are names on both sides, else in order; none is tried if there are not as many as fields. -/
inductive FieldTriesO (res : Table Id) (cc : Bool) : Composite Γ → List (Field Id) → Ending → Prop
  | byName {l fs o} : l ≠ [] → (∃ f ∈ fs, f.name ≠ none) → NameTriesO res cc l fs o → FieldTriesO res cc (.named l) fs o
  | byOrder {c fs o} : ((∃ vs, c = .unnamed vs) ∨ c = .named [] ∨ ∀ f ∈ fs, f.name = none) → c.vals.length = fs.length →
      TriesO res cc (fs.map (fun f => f.id)) c.vals o → FieldTriesO res cc c fs o
  | length {c fs} : ((∃ vs, c = .unnamed vs) ∨ c = .named [] ∨ ∀ f ∈ fs, f.name = none) → c.vals.length ≠ fs.length → FieldTriesO res cc c fs .fails

/-- A composite at a type, without looking through all wrappers. -/
inductive AttemptO (res : Table Id) (cc : Bool) (c : Composite Γ) (t : Id) : Ending → Prop
  /-- Looking through the wrappers without names does not end. -/
  | endless : BareChain res t → AttemptO res cc c t .never
  | struct {w fs o} : StructIn res t → BareEnd res t w → res w = some (.composite fs) → (∀ v, c ≠ .unnamed [v]) → FieldTriesO res cc c fs o → AttemptO res cc c t o
  | inStruct {w fs v o} : StructIn res t → BareEnd res t w → res w = some (.composite fs) → c = .unnamed [v] → EndsIn res cc v w o → AttemptO res cc c t o
  | tuple {w ts o} : StructIn res t → BareEnd res t w → res w = some (.tuple ts) → c.vals.length ≠ 1 → c.vals.length = ts.length → TriesO res cc ts c.vals o →
      AttemptO res cc c t o
  | tupleLength {w ts} : StructIn res t → BareEnd res t w → res w = some (.tuple ts) → c.vals.length ≠ 1 → c.vals.length ≠ ts.length → AttemptO res cc c t .fails
  | inTuple {w ts v o} : StructIn res t → BareEnd res t w → res w = some (.tuple ts) → c.vals = [v] → EndsIn res cc v w o → AttemptO res cc c t o
  | inWrapper {w d v o} : StructIn res t → BareEnd res t w → res w = some d → ¬ StructIn res w → c.vals = [v] → EndsIn res cc v w o → AttemptO res cc c t o
  | noWrapper {w d} : StructIn res t → BareEnd res t w → res w = some d → ¬ StructIn res w → c.vals.length ≠ 1 → AttemptO res cc c t .fails
  | missing {w} : StructIn res t → BareEnd res t w → res w = none → AttemptO res cc c t .fails
  | sequence {u o} : res t = some (.sequence u) → TriesO res cc (List.replicate c.vals.length u) c.vals o → AttemptO res cc c t o
  | array {u k o} : res t = some (.array u k) → c.vals.length = k → TriesO res cc (List.replicate k u) c.vals o → AttemptO res cc c t o
  | arrayLength {u k} : res t = some (.array u k) → c.vals.length ≠ k → AttemptO res cc c t .fails
  | bits {s o b} : res t = some (.bitSequence s o) → List.Forall₂ IsBit c.vals b → AttemptO res cc c t .ok
  | noBits {s o} : res t = some (.bitSequence s o) → (∀ b, ¬ List.Forall₂ IsBit c.vals b) → AttemptO res cc c t .fails
  | other {v o} : ¬ StructIn res t → (∀ u, res t ≠ some (.sequence u)) → (∀ u n, res t ≠ some (.array u n)) → (∀ s o, res t ≠ some (.bitSequence s o)) → c.vals = [v] →
      EndsIn res cc v t o → AttemptO res cc c t o
  | otherLength : ¬ StructIn res t → (∀ u, res t ≠ some (.sequence u)) → (∀ u n, res t ≠ some (.array u n)) → (∀ s o, res t ≠ some (.bitSequence s o)) →
      c.vals.length ≠ 1 → AttemptO res cc c t .fails

/-- How encoding a composite ends. -/
inductive CompositeO (res : Table Id) (cc : Bool) (c : Composite Γ) (t : Id) : Ending → Prop
  /-- It is tried as it is, .. -/
  | direct {o} : AttemptO res cc c t o → o ≠ .fails → CompositeO res cc c t o
  /-- .. and if this fails then what is in all wrappers is looked for, which may not end; .. -/
  | endless : AttemptO res cc c t .fails → Bottomless res t → CompositeO res cc c t .never
  /-- .. if the type is a wrapper, the composite is tried there, .. -/
  | inner {w u o} : AttemptO res cc c t .fails → WrapsIn res t w → WrapsEnd res t u → AttemptO res cc c u o → o ≠ .fails → CompositeO res cc c t o
  /-- .. and if this fails as well, its only value there. -/
  | innerAlone {w u v o} : AttemptO res cc c t .fails → WrapsIn res t w → WrapsEnd res t u → AttemptO res cc c u .fails → c.vals = [v] → EndsIn res cc v u o → CompositeO res cc c t o
  | innerFails {w u} : AttemptO res cc c t .fails → WrapsIn res t w → WrapsEnd res t u → AttemptO res cc c u .fails → c.vals.length ≠ 1 → CompositeO res cc c t .fails
  /-- If the type is no wrapper, its only value is tried. -/
  | alone {v o} : AttemptO res cc c t .fails → (∀ w, ¬ WrapsIn res t w) → c.vals = [v] → EndsIn res cc v t o → CompositeO res cc c t o
  | fails : AttemptO res cc c t .fails → (∀ w, ¬ WrapsIn res t w) → c.vals.length ≠ 1 → CompositeO res cc c t .fails

/-- How encoding a variant ends. The first variant of that name counts. -/
inductive VariantO (res : Table Id) (cc : Bool) (s : Str) (c : Composite Γ) (t : Id) : Ending → Prop
  | endless : Bottomless res t → VariantO res cc s c t .never
  | variant {u before d after o} : WrapsEnd res t u → res u = some (.variant (before ++ d :: after)) → d.name = s → (∀ e ∈ before, e.name ≠ s) → FieldTriesO res cc c d.fields o →
      VariantO res cc s c t o
  | noVariant {u} : WrapsEnd res t u → (∀ ds, res u = some (.variant ds) → ∀ d ∈ ds, d.name ≠ s) → VariantO res cc s c t .fails

end SV
