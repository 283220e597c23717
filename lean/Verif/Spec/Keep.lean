import Verif.Spec.Trip
/-
Specification vocabulary for typed data that is kept as text.
-/
namespace SV

variable {T : Type}

/-- `TyPart s t`: the Rust type `s` is `t`, or is used in it. -/
inductive TyPart (s : Ty) : Ty → Prop
  | self : TyPart s s
  | option {t} (h : TyPart s t) : TyPart s (.option t)
  | newtype {t} (h : TyPart s t) : TyPart s (.newtype t)
  | seq {t} (h : TyPart s t) : TyPart s (.seq t)
  | tuple {ts t} (ht : t ∈ ts) (h : TyPart s t) : TyPart s (.tuple ts)
  | tupleStruct {ts t} (ht : t ∈ ts) (h : TyPart s t) : TyPart s (.tupleStruct ts)
  | struct {fs : List (Str × Ty)} {f} (hf : f ∈ fs) (h : TyPart s f.2) : TyPart s (.struct fs)
  | map {chars t} (h : TyPart s t) : TyPart s (.map chars t)
  | enumNewtype {vs n t} (hv : (n, VTy.newtype t) ∈ vs) (h : TyPart s t) : TyPart s (.enum vs)
  | enumTuple {vs n ts t} (hv : (n, VTy.tuple ts) ∈ vs) (ht : t ∈ ts) (h : TyPart s t) : TyPart s (.enum vs)
  | enumStruct {vs n f} {fs : List (Str × Ty)} (hv : (n, VTy.struct fs) ∈ vs) (hf : f ∈ fs) (h : TyPart s f.2) : TyPart s (.enum vs)

/-- There is a signed number in the value that is not negative. -/
inductive HasSignedNat : Value T → Prop
  | here {n c} (h : 0 ≤ n.val) : HasSignedNat (.mk (.primitive (.i128 n)) c)
  | named {fs c p} (hp : p ∈ fs) (h : HasSignedNat p.2) : HasSignedNat (.mk (.composite (.named fs)) c)
  | unnamed {vs c v} (hv : v ∈ vs) (h : HasSignedNat v) : HasSignedNat (.mk (.composite (.unnamed vs)) c)
  | variant {n f c d} (h : HasSignedNat (.mk (.composite f) d)) : HasSignedNat (.mk (.variant (.mk n f)) c)

/-- The names of variants of the enums in a type can be used in texts: none of them is an identifier that begins with `true` or `false`. -/
def NamesOk (u : Uni) (t : Ty) : Prop := ∀ vs, TyPart (.enum vs) t → ∀ p ∈ vs, NameOk u p.1

end SV
