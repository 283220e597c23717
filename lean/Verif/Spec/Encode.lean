import Verif.Spec.Scale
import Verif.Spec.Trace
import Verif.Model.Encode
/-
Vocabulary for statements about encoding.
-/
namespace SV

variable {Id Γ : Type}

/-- `Okay a bs`: the encoding succeeds by appending `bs` to whatever is in the buffer. -/
def Okay (a : EncM Id) (bs : List UInt8) : Prop := ∀ out, a out = (.ok (), out ++ bs)

/-- `Fails a`: the encoding fails, whatever is in the buffer. -/
def Fails (a : EncM Id) : Prop := ∀ out, ∃ e o, a out = (.error e, o)

/-- The type `t` is a wrapper around `u` alone: a struct with one field, a tuple with one item, or an array of length one. -/
inductive SingleEntry (reg : Reg Id) : Id → Id → Prop
  | composite {t f} : reg.resolve t = some (.composite [f]) → SingleEntry reg t f.id
  | tuple {t u} : reg.resolve t = some (.tuple [u]) → SingleEntry reg t u
  | array {t u} : reg.resolve t = some (.array u 1) → SingleEntry reg t u

/-- The type `t` is any number of wrappers around `u`. -/
inductive SameRepr (reg : Reg Id) : Id → Id → Prop
  | refl (t) : SameRepr reg t t
  | step {t u w} : SingleEntry reg t u → SameRepr reg u w → SameRepr reg t w

/-- `u` is what is left of `t` when all wrappers have been taken off. -/
def Innermost (reg : Reg Id) (t u : Id) : Prop := SameRepr reg t u ∧ ∀ w, ¬ SingleEntry reg u w

/-- The type `t` is a wrapper without a name for its content: `struct T(U)` or `(U,)`. -/
inductive Wraps (reg : Reg Id) : Id → Id → Prop
  | composite {t u} : reg.resolve t = some (.composite [⟨none, u⟩]) → Wraps reg t u
  | tuple {t u} : reg.resolve t = some (.tuple [u]) → Wraps reg t u

/-- `u` is what is left of `t` when all wrappers without names have been taken off. -/
inductive Unwrapped (reg : Reg Id) : Id → Id → Prop
  | done {t} : (∀ u, ¬ Wraps reg t u) → Unwrapped reg t t
  | step {t u w} : Wraps reg t u → Unwrapped reg u w → Unwrapped reg t w

/-- `u` is what is left of `t` when all structs with one field, named or not, and tuples with one entry have been taken off. -/
inductive Bared (reg : Reg Id) : Id → Id → Prop
  | done {t} : (∀ f, reg.resolve t ≠ some (.composite [f])) ∧ (∀ u, reg.resolve t ≠ some (.tuple [u])) → Bared reg t t
  | struct {t f u} : reg.resolve t = some (.composite [f]) → Bared reg f.id u → Bared reg t u
  | tuple {t w u} : reg.resolve t = some (.tuple [w]) → Bared reg w u → Bared reg t u

theorem bared_end {reg : Reg Id} {t u : Id} (h : Bared reg t u) : (∀ f, reg.resolve u ≠ some (.composite [f])) ∧ (∀ w, reg.resolve u ≠ some (.tuple [w])) := by
  induction h with
  | done h => exact h
  | struct _ _ ih => exact ih
  | tuple _ _ ih => exact ih

/-- A byte as a number. -/
def byteValue (b : UInt8) : Value Unit := .mk (.primitive (.u128 ⟨b.toNat, Nat.lt_trans b.toNat_lt (by decide)⟩)) ()

/-- A primitive type, `Compact`, or an enum. -/
def IsSimple : TypeDef Id → Prop
  | .primitive _ => True
  | .compact _ => True
  | .variant _ => True
  | _ => False

/-- The type is a simple one in any number of wrappers. -/
def Simple (reg : Reg Id) (t : Id) : Prop := ∃ u d, Innermost reg t u ∧ reg.resolve u = some d ∧ IsSimple d

/-- If all fields have names then these are distinct. -/
def FieldsOk (fs : List (Field Id)) : Prop := ∀ names : List Str, fs.map (fun f => f.name) = names.map some → names.Nodup

/-- What a type must be like to be encoded to faithfully (this is about the type itself and not about those in it):
there are no 256 bit numbers, which cannot be encoded to; `char` is as the version of `scale-encode` has it; names are
distinct. The last condition is on types like `struct Z(Y)`, `struct Y(Vec<T>)`, where there are two wrappers or more around
a sequence or an array of length one, and says that `T` is simple. -/
structure Plain (reg : Reg Id) (charToChar : Bool) (t : Id) : Prop where
  no_u256 : reg.resolve t ≠ some (.primitive .u256)
  no_i256 : reg.resolve t ≠ some (.primitive .i256)
  char : reg.resolve t = some (.primitive .char) → charToChar = true
  fields : ∀ fs, reg.resolve t = some (.composite fs) → FieldsOk fs
  variants : ∀ ds, reg.resolve t = some (.variant ds) → (ds.map (fun d => d.name)).Nodup ∧ ∀ d ∈ ds, FieldsOk d.fields
  wrapped : ∀ u w c e, Wraps reg t u → Wraps reg u w → Unwrapped reg w c →
    (reg.resolve c = some (.sequence e) ∨ reg.resolve c = some (.array e 1)) → Simple reg e

/-- A type and all types in it can be encoded to faithfully. -/
def Encodable (reg : Reg Id) (charToChar : Bool) (t : Id) : Prop := ∀ u, Reach reg t u → Plain reg charToChar u

/-- The bytes of the integer `n` at the type `u`, which is no wrapper. With `char` the type may also be `char`. -/
inductive NumAt (reg : Reg Id) (char : Bool) (u : Id) : Int → List UInt8 → Prop
  | uint {p k} {n : Nat} {bs} : reg.resolve u = some (.primitive p) → UintType p k → IsLe k n bs → NumAt reg char u n bs
  | int {p k n bs} : reg.resolve u = some (.primitive p) → IntType p k → IsLeInt k n bs → NumAt reg char u n bs
  | char {n : Nat} {bs} : reg.resolve u = some (.primitive .char) → char = true → IsLe 4 n bs → NumAt reg char u n bs
  | compact {w x p k} {n : Nat} {bs} : reg.resolve u = some (.compact w) → Innermost reg w x → reg.resolve x = some (.primitive p) →
      UintType p k → n < 256 ^ k → IsCompact n bs → NumAt reg char u n bs

mutual
/-- `Typed reg c t v`: the value `v` is of the type `t` (with `c`: of `Compact<t>`) in the shape that decoding produces. No bytes and
no contexts are involved. Lengths are less than `2 ^ 32`. -/
inductive Typed (reg : Reg Id) : Bool → Id → Value Γ → Prop
  | bool {t b x} : reg.resolve t = some (.primitive .bool) → Typed reg false t (.mk (.primitive (.bool b)) x)
  | char {t c x} : reg.resolve t = some (.primitive .char) → Typed reg false t (.mk (.primitive (.char c)) x)
  | str {t s x} : reg.resolve t = some (.primitive .str) → (utf8Bytes s).length < 2 ^ 32 → Typed reg false t (.mk (.primitive (.string s)) x)
  | uint {c t p k n x} : reg.resolve t = some (.primitive p) → UintType p k → n.val < 256 ^ k → Typed reg c t (.mk (.primitive (.u128 n)) x)
  | int {t p k x} {n : I128} : reg.resolve t = some (.primitive p) → IntType p k → -(256 ^ k : Nat) ≤ 2 * n.val → 2 * n.val < (256 ^ k : Nat) →
      Typed reg false t (.mk (.primitive (.i128 n)) x)
  | compact {t u v} : reg.resolve t = some (.compact u) → Typed reg true u v → Typed reg false t v
  | sequence {t u vs x} : reg.resolve t = some (.sequence u) → vs.length < 2 ^ 32 → TypedAll reg false (List.replicate vs.length u) vs →
      Typed reg false t (.mk (.composite (.unnamed vs)) x)
  | array {t u n vs x} : reg.resolve t = some (.array u n) → TypedAll reg false (List.replicate n u) vs →
      Typed reg false t (.mk (.composite (.unnamed vs)) x)
  | tuple {c t ts vs x} : reg.resolve t = some (.tuple ts) → (c = true → ts.length = 1) → TypedAll reg c ts vs →
      Typed reg c t (.mk (.composite (.unnamed vs)) x)
  | composite {c t fs vs cs x} : reg.resolve t = some (.composite fs) → (c = true → fs.length = 1) →
      TypedAll reg c (fs.map (fun f => f.id)) vs → HasShape fs vs cs → Typed reg c t (.mk (.composite cs) x)
  | variant {t ds d vs cs x} : reg.resolve t = some (.variant ds) → ds.find? (fun e => e.index == d.index) = some d →
      TypedAll reg false (d.fields.map (fun f => f.id)) vs → HasShape d.fields vs cs → Typed reg false t (.mk (.variant (.mk d.name cs)) x)
  | bits {t s o b x} : reg.resolve t = some (.bitSequence s o) → b.length < 2 ^ 32 → Typed reg false t (.mk (.bitSequence b) x)
/-- Values of several types. -/
inductive TypedAll (reg : Reg Id) : Bool → List Id → List (Value Γ) → Prop
  | nil {c} : TypedAll reg c [] []
  | cons {c t ts v vs} : Typed reg c t v → TypedAll reg c ts vs → TypedAll reg c (t :: ts) (v :: vs)
end

/-- Strings, composites and variants in `v` are shorter than `2 ^ 32`. -/
def Short (v : Value Γ) : Prop := ∀ w, Sub v w → (∀ c, w.fields? = some c → c.len < 2 ^ 32) ∧
  (∀ s, w.value = .primitive (.string s) → (utf8Bytes s).length < 2 ^ 32)

/-- There are no bit sequences in a type. -/
def NoBits (reg : Reg Id) (t : Id) : Prop := ∀ u, Reach reg t u → ∀ s o, reg.resolve u ≠ some (.bitSequence s o)

/-! ### Rules of encoding -/

/-- The values encode one after the other at the types to the bytes. -/
inductive EncAll (reg : Reg Id) (charToChar : Bool) : List Id → List (Value Γ) → List UInt8 → Prop
  | nil : EncAll reg charToChar [] [] []
  | cons {t ts v vs bs bs'} : Okay (v.encode reg charToChar t) bs → EncAll reg charToChar ts vs bs' →
      EncAll reg charToChar (t :: ts) (v :: vs) (bs ++ bs')

/-- `v` is the last value with the name `n`. -/
def LastNamed (l : List (Str × Value Γ)) (n : Str) (v : Value Γ) : Prop :=
  ∃ before after, l = before ++ (n, v) :: after ∧ ∀ w, (n, w) ∉ after

/-- The fields `fs` (name and type) encode, in their order, to the bytes; each of them with the last value that has its name. -/
inductive EncByName (reg : Reg Id) (charToChar : Bool) (l : List (Str × Value Γ)) : List (Str × Id) → List UInt8 → Prop
  | nil : EncByName reg charToChar l [] []
  | cons {n t fs v bs bs'} : LastNamed l n v → Okay (v.encode reg charToChar t) bs → EncByName reg charToChar l fs bs' →
      EncByName reg charToChar l ((n, t) :: fs) (bs ++ bs')

/-- A value that stands for a bit: a boolean, or the number 0 or 1. -/
inductive IsBit : Value Γ → Bool → Prop
  | bool {b x} : IsBit (.mk (.primitive (.bool b)) x) b
  | u128 {n : U128} {b x} : n.val = (if b then 1 else 0) → IsBit (.mk (.primitive (.u128 n)) x) b
  | i128 {n : I128} {b x} : n.val = (if b then 1 else 0) → IsBit (.mk (.primitive (.i128 n)) x) b

/-- `v` is `w` inside any number of composites with one value each. -/
inductive InSingles : Value Γ → Value Γ → Prop
  | refl (v) : InSingles v v
  | unnamed {v w x} : InSingles v w → InSingles (.mk (.composite (.unnamed [v])) x) w
  | named {n v w x} : InSingles v w → InSingles (.mk (.composite (.named [(n, v)])) x) w

/-- Not a composite, and not a 256 bit number. -/
def IsAtom (v : Value Γ) : Prop := (∀ c, v.value ≠ .composite c) ∧ (∀ b, v.value ≠ .primitive (.u256 b)) ∧ (∀ b, v.value ≠ .primitive (.i256 b))

/-- The type has entries, as many as `ts`, but not one: an array, a tuple, or a struct. -/
inductive Entries (reg : Reg Id) (t : Id) : List Id → Prop
  | array {u n} : reg.resolve t = some (.array u n) → n ≠ 1 → Entries reg t (List.replicate n u)
  | tuple {ts} : reg.resolve t = some (.tuple ts) → ts.length ≠ 1 → Entries reg t ts
  | composite {fs} : reg.resolve t = some (.composite fs) → fs.length ≠ 1 → Entries reg t (fs.map (fun f => f.id))

/-! ### Errors of encoding -/

/-- The encoding fails with this error, whatever is in the buffer. -/
def FailsWith (a : EncM Id) (e : EErr Id) : Prop := ∀ out, ∃ o, a out = (.error e, o)

/-- An error that was met one step further in. -/
def EErr.under (l : ELoc) (e : EErr Id) : EErr Id := ⟨l :: e.path, e.kind⟩

/-- `Locates v p`: following `p` from the value `v` leads somewhere in `v`: an index is that of a value in a composite or variant (or of a
byte of a 256 bit number), and a field is one in a composite or variant that has it. A composite with one value may be passed through
without a step. -/
inductive Locates : Value Γ → List ELoc → Prop
  | here (v) : Locates v []
  | idx {v w : Value Γ} {c i p} : v.fields? = some c → c.vals[i]? = some w → Locates w p → Locates v (.idx i :: p)
  | field {v w : Value Γ} {l n p} : v.fields? = some (.named l) → (n, w) ∈ l → Locates w p → Locates v (.field n :: p)
  | single {v w : Value Γ} {c p} : v.value = .composite c → c.vals = [w] → Locates w p → Locates v p
  | byte {v : Value Γ} {b i} : v.value = .primitive (.u256 b) ∨ v.value = .primitive (.i256 b) → i < 32 → Locates v [.idx i]

/-- How the value number `i` of a composite is called: by its name if it has one. -/
def Composite.loc (c : Composite Γ) (i : Nat) : ELoc :=
  match c with
  | .named l => match l[i]? with
    | some (n, _) => .field n
    | none => .idx i
  | .unnamed _ => .idx i

/-- Of the values at the types, number `i` is the first that does not encode; and its error is `e`. -/
def FirstFailing (reg : Reg Id) (charToChar : Bool) (ts : List Id) (vs : List (Value Γ)) (i : Nat) (e : EErr Id) : Prop :=
  ∃ ts₁ t ts₂ vs₁ v vs₂ bs, ts = ts₁ ++ t :: ts₂ ∧ vs = vs₁ ++ v :: vs₂ ∧ vs₁.length = i ∧ EncAll reg charToChar ts₁ vs₁ bs ∧
    FailsWith (v.encode reg charToChar t) e

/-- Of the fields `fs` (name and type), to be encoded with the values `l`, the first that cannot be: there is no value for it; or its value does not
encode. -/
inductive FirstField (reg : Reg Id) (charToChar : Bool) (l : List (Str × Value Γ)) (fs : List (Str × Id)) : EErr Id → Prop
  | missing {fs₁ n t fs₂ bs} : fs = fs₁ ++ (n, t) :: fs₂ → EncByName reg charToChar l fs₁ bs → (∀ v, (n, v) ∉ l) →
      FirstField reg charToChar l fs ⟨[], .cannotFindField n⟩
  | fails {fs₁ n t fs₂ bs v e} : fs = fs₁ ++ (n, t) :: fs₂ → EncByName reg charToChar l fs₁ bs → LastNamed l n v →
      FailsWith (v.encode reg charToChar t) e → FirstField reg charToChar l fs (e.under (.field n))

end SV
