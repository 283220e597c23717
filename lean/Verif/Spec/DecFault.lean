import Verif.Spec.Scale
import Verif.Model.Decode
/-
Specification of why bytes cannot be decoded: the first thing in them that is wrong.
-/
namespace SV

variable {Id Γ : Type}

/-- The types which can be in a `Compact`: unsigned numbers, and structs and tuples with one member. -/
inductive Compactable : TypeDef Id → Prop
  | uint {p k} (h : UintType p k) : Compactable (.primitive p)
  | struct {f} : Compactable (.composite [f])
  | tuple {t} : Compactable (.tuple [t])

/-- The bytes begin with no compact number that is less than `max`: there are too few, or the number is too large, or it is not in the shortest form. -/
def NoCompact (max : Nat) (bs : List UInt8) : Prop := ∀ n p r, bs = p ++ r → n < max → ¬ IsCompact n p

/-- `NodeFault reg c t bs e`: the bytes `bs` are not even the beginning of a value of type `t` (with `c`: of `Compact<t>`), for the reason `e`. -/
inductive NodeFault (reg : Reg Id) : Bool → Id → List UInt8 → DErr → Prop
  /-- The registry does not have the type. -/
  | unknown {c t bs} (ht : reg.resolve t = none) : NodeFault reg c t bs .typeNotFound
  /-- A `Compact<u>`. -/
  | compact {t u bs e} (ht : reg.resolve t = some (.compact u)) (h : NodeFault reg true u bs e) : NodeFault reg false t bs e
  | notCompact {t d bs} (ht : reg.resolve t = some d) (h : ¬ Compactable d) : NodeFault reg true t bs .cannotDecodeCompact
  | compactUint {t p k bs} (ht : reg.resolve t = some (.primitive p)) (hp : UintType p k) (h : NoCompact (256 ^ k) bs) : NodeFault reg true t bs .codec
  | bool {t bs} (ht : reg.resolve t = some (.primitive .bool)) (h : ∀ r, bs ≠ 0 :: r ∧ bs ≠ 1 :: r) : NodeFault reg false t bs .codec
  | charShort {t bs} (ht : reg.resolve t = some (.primitive .char)) (h : bs.length < 4) : NodeFault reg false t bs .codec
  | char {t p r} (ht : reg.resolve t = some (.primitive .char)) (len : p.length = 4) (h : ∀ c : Char, ¬ IsLe 4 c.toNat p) : NodeFault reg false t (p ++ r) .invalidChar
  | strLen {t bs} (ht : reg.resolve t = some (.primitive .str)) (h : NoCompact (2 ^ 64) bs) : NodeFault reg false t bs .codec
  | strShort {t n p r} (ht : reg.resolve t = some (.primitive .str)) (hp : IsCompact n p) (hn : n < 2 ^ 64) (h : r.length < n) : NodeFault reg false t (p ++ r) .codec
  | str {t p q r} (ht : reg.resolve t = some (.primitive .str)) (hp : IsCompact q.length p) (hn : q.length < 2 ^ 64) (h : ∀ s, utf8Bytes s ≠ q) :
      NodeFault reg false t (p ++ q ++ r) .invalidStr
  | intShort {t p k bs} (ht : reg.resolve t = some (.primitive p)) (hp : UintType p k ∨ IntType p k) (h : bs.length < k) : NodeFault reg false t bs .codec
  | bigShort {t p bs} (ht : reg.resolve t = some (.primitive p)) (hp : p = .u256 ∨ p = .i256) (h : bs.length < 32) : NodeFault reg false t bs .codec
  | seqLen {t u bs} (ht : reg.resolve t = some (.sequence u)) (h : NoCompact (2 ^ 64) bs) : NodeFault reg false t bs .codec
  | variantShort {t ds} (ht : reg.resolve t = some (.variant ds)) : NodeFault reg false t [] .codec
  | variant {t ds i r} (ht : reg.resolve t = some (.variant ds)) (h : ∀ d ∈ ds, d.index ≠ i) : NodeFault reg false t (i :: r) (.variantNotFound i)
  | bitsLen {t s o bs} (ht : reg.resolve t = some (.bitSequence s o)) (h : NoCompact (2 ^ 32) bs) : NodeFault reg false t bs .codec
  /-- Words for so many bits are not there. -/
  | bitsShort {t s o n p r} (ht : reg.resolve t = some (.bitSequence s o)) (hp : IsCompact n p) (hn : n < 2 ^ 32)
      (h : ∀ w, n ≤ w * (8 * wordBytes s) → r.length < w * wordBytes s) : NodeFault reg false t (p ++ r) .codec

/-- `NodeParts reg c t bs ty c' name fs r`: the bytes `bs` begin with what a value of type `t` (with `c`: of `Compact<t>`) has before its parts: the length of a sequence or the index of a variant. The parts have the
types (and names) `fs`, and are to be read from `r`; with `c'` as `Compact`. The node has the type `ty`, and is a variant called `name` or else a composite. -/
inductive NodeParts (reg : Reg Id) : Bool → Id → List UInt8 → Id → Bool → Option Str → List (Field Id) → List UInt8 → Prop
  | compact {t u bs ty c' name fs r} (ht : reg.resolve t = some (.compact u)) (h : NodeParts reg true u bs ty c' name fs r) : NodeParts reg false t bs ty c' name fs r
  | sequence {t u n p r} (ht : reg.resolve t = some (.sequence u)) (hp : IsCompact n p) (hn : n < 2 ^ 64) :
      NodeParts reg false t (p ++ r) t false none (List.replicate n ⟨none, u⟩) r
  | array {t u n r} (ht : reg.resolve t = some (.array u n)) : NodeParts reg false t r t false none (List.replicate n ⟨none, u⟩) r
  | tuple {c t ts r} (ht : reg.resolve t = some (.tuple ts)) (hc : c = true → ts.length = 1) : NodeParts reg c t r t c none (ts.map (fun u => ⟨none, u⟩)) r
  | composite {c t fs r} (ht : reg.resolve t = some (.composite fs)) (hc : c = true → fs.length = 1) : NodeParts reg c t r t c none fs r
  | variant {t pre d post r} (ht : reg.resolve t = some (.variant (pre ++ d :: post))) (first : ∀ e ∈ pre, e.index ≠ d.index) :
      NodeParts reg false t (d.index :: r) t false (some d.name) d.fields r

/-- `DecFault reg al c t bs e`: decoding `bs` at type `t` (with `c`: at `Compact<t>`) fails with `e`: at its first node that cannot be read. All before that is as it should be, and memory (`al`) for it can be had. -/
inductive DecFault (reg : Reg Id) (al : Nat → Bool) : Bool → Id → List UInt8 → DErr → Prop
  | here {c t bs e} (h : NodeFault reg c t bs e) : DecFault reg al c t bs e
  | part {c t bs ty c' name fs r k f vs p r' e} (h : NodeParts reg c t bs ty c' name fs r) (mem : al fs.length = true) (hf : fs[k]? = some f) (hr : r = p ++ r')
      (before : ScaleAll reg False .u256 id c' ((fs.take k).map (fun f => f.id)) vs p) (room : ∀ v ∈ vs, AllocOk al v) (fault : DecFault reg al c' f.id r' e) : DecFault reg al c t bs e

/-- `Starved reg al c t bs`: decoding `bs` at type `t` (with `c`: at `Compact<t>`) comes to a node for whose parts memory cannot be had, and all before that is as it should be. -/
inductive Starved (reg : Reg Id) (al : Nat → Bool) : Bool → Id → List UInt8 → Prop
  | here {c t bs ty c' name fs r} (h : NodeParts reg c t bs ty c' name fs r) (mem : al fs.length = false) : Starved reg al c t bs
  | part {c t bs ty c' name fs r k f vs p r'} (h : NodeParts reg c t bs ty c' name fs r) (mem : al fs.length = true) (hf : fs[k]? = some f) (hr : r = p ++ r')
      (before : ScaleAll reg False .u256 id c' ((fs.take k).map (fun f => f.id)) vs p) (room : ∀ v ∈ vs, AllocOk al v) (later : Starved reg al c' f.id r') : Starved reg al c t bs

/-- Decoding `bs` as the fields `fs` fails with `e` at one of them, which begins at the bytes `r`. -/
def FieldsFault (reg : Reg Id) (al : Nat → Bool) (fs : List (Field Id)) (bs : List UInt8) (e : DErr) (r : List UInt8) : Prop :=
  al fs.length = true ∧ ∃ k f vs p, fs[k]? = some f ∧ bs = p ++ r ∧ ScaleAll reg False .u256 id false ((fs.take k).map (fun f => f.id)) vs p ∧ (∀ v ∈ vs, AllocOk al v) ∧ DecFault reg al false f.id r e

/-- Decoding `bs` as the fields `fs` comes to where memory cannot be had. -/
def FieldsStarved (reg : Reg Id) (al : Nat → Bool) (fs : List (Field Id)) (bs : List UInt8) : Prop :=
  al fs.length = false ∨ ∃ k f vs p r, fs[k]? = some f ∧ bs = p ++ r ∧ ScaleAll reg False .u256 id false ((fs.take k).map (fun f => f.id)) vs p ∧ (∀ v ∈ vs, AllocOk al v) ∧ Starved reg al false f.id r

end SV
