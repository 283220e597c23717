import Verif.Model.AnyReg
import Verif.Spec.Codec
/-
Specification: types without end, in tables of types of any kind.
-/
namespace SV

variable {Id Γ : Type}

/-- `Inline res c t c' ts`: a value of type `t` (with `c`: of `Compact<t>`) is written as values of the types `ts` (with `c'`: as `Compact`) one after the other, and nothing else. -/
inductive Inline (res : Id → Option (TypeDef Id)) : Bool → Id → Bool → List Id → Prop
  | composite {t fs} (h : res t = some (.composite fs)) : Inline res false t false (fs.map (fun f => f.id))
  | tuple {t ts} (h : res t = some (.tuple ts)) : Inline res false t false ts
  | array {t u n} (h : res t = some (.array u n)) : Inline res false t false (List.replicate n u)
  | compact {t u c ts} (h : res t = some (.compact u)) (i : Inline res true u c ts) : Inline res false t c ts
  | compactComposite {t f} (h : res t = some (.composite [f])) : Inline res true t true [f.id]
  | compactTuple {t u} (h : res t = some (.tuple [u])) : Inline res true t true [u]

/-- Values of the type have no bytes, like `()`. -/
inductive NoBytes (res : Id → Option (TypeDef Id)) : Bool → Id → Prop
  | mk {c t c' ts} (h : Inline res c t c' ts) (all : ∀ u ∈ ts, NoBytes res c' u) : NoBytes res c t

/-- A value of the one type begins with a value of the other one, at the same byte. -/
def StartsWith (res : Id → Option (TypeDef Id)) (x y : Bool × Id) : Prop :=
  ∃ pre post, Inline res x.1 x.2 y.1 (pre ++ y.2 :: post) ∧ ∀ u ∈ pre, NoBytes res y.1 u

/-- A value of the type would begin with a value that begins with a value .. without end, like in `struct A { unit: (), a: A }`. -/
def Endless (res : Id → Option (TypeDef Id)) (x : Bool × Id) : Prop :=
  ∃ chain : Nat → Bool × Id, chain 0 = x ∧ ∀ n, StartsWith res (chain n) (chain (n + 1))

/-- The types in the definition of a type. -/
def TypeDef.mentions : TypeDef Id → List Id
  | .composite fs => fs.map (fun f => f.id)
  | .variant vs => (vs.map (fun v => v.fields.map (fun f => f.id))).flatten
  | .sequence t => [t]
  | .array t _ => [t]
  | .tuple ts => ts
  | .primitive _ => []
  | .compact t => [t]
  | .bitSequence _ _ => []

/-- The type is `t`, or is in the definition of `t`, or in the definition of a type there, and so on. -/
inductive WithinType (res : Id → Option (TypeDef Id)) (t : Id) : Id → Prop
  | self : WithinType res t t
  | step {u d w} (h : WithinType res t u) (hd : res u = some d) (hw : w ∈ d.mentions) : WithinType res t w

/-- `OpensInto res c t bs c' ts r`: the bytes `bs` begin with what a value of type `t` (with `c`: of `Compact<t>`) has before its parts. These have the types `ts`, and are to be read from `r`; with `c'` as `Compact`. -/
inductive OpensInto (res : Id → Option (TypeDef Id)) : Bool → Id → List UInt8 → Bool → List Id → List UInt8 → Prop
  | inline {c t c' ts r} (h : Inline res c t c' ts) : OpensInto res c t r c' ts r
  | sequence {t u n p r} (h : res t = some (.sequence u)) (hp : IsCompact n p) (hn : n < 2 ^ 64) : OpensInto res false t (p ++ r) false (List.replicate n u) r
  | variant {t pre d post r} (h : res t = some (.variant (pre ++ d :: post))) (first : ∀ e ∈ pre, e.index ≠ d.index) :
      OpensInto res false t (d.index :: r) false (d.fields.map (fun f => f.id)) r

/-- Values of these types are decoded from the bytes `bs`, one after the other, and `r` is what is left. -/
def Passes (res : Id → Option (TypeDef Id)) (al : Nat → Bool) (ctx : Id → Γ) (c : Bool) : List Id → List UInt8 → List UInt8 → Prop
  | [], bs, r => r = bs
  | t :: ts, bs, r => ∃ n v r', decT res al ctx n c t bs = some (.ok (v, r')) ∧ Passes res al ctx c ts r' r

/-- Decoding of the one type from the one bytes comes to decode the other type from the other bytes. -/
inductive ComesTo (res : Id → Option (TypeDef Id)) (al : Nat → Bool) (ctx : Id → Γ) : Bool × Id → List UInt8 → Bool × Id → List UInt8 → Prop
  | self {x bs} : ComesTo res al ctx x bs x bs
  | part {c t bs c' pre u post r r' y bs'} (h : OpensInto res c t bs c' (pre ++ u :: post) r) (before : Passes res al ctx c' pre r r') (next : ComesTo res al ctx (c', u) r' y bs') :
      ComesTo res al ctx (c, t) bs y bs'

end SV
