import Verif.Model.AnyEnc
import Verif.Spec.Endless
/-
Specification: registries with the same types under other ids, and registries of which only a part matters.
-/
namespace SV

variable {Id Id' : Type}

/-- A field with the id of its type replaced. -/
def Field.renumber (f : Id → Id') (x : Field Id) : Field Id' := ⟨x.name, f x.id⟩

/-- A variant with the ids of its types replaced. -/
def VariantDef.renumber (f : Id → Id') (x : VariantDef Id) : VariantDef Id' := ⟨x.name, x.index, x.fields.map (Field.renumber f)⟩

/-- The definition of a type with the ids replaced that it mentions. -/
def TypeDef.renumber (f : Id → Id') : TypeDef Id → TypeDef Id'
  | .composite fs => .composite (fs.map (Field.renumber f))
  | .variant vs => .variant (vs.map (VariantDef.renumber f))
  | .sequence t => .sequence (f t)
  | .array t n => .array (f t) n
  | .tuple ts => .tuple (ts.map f)
  | .primitive p => .primitive p
  | .compact t => .compact (f t)
  | .bitSequence s o => .bitSequence s o

/-- The types within `t` are in the other table as well, under the ids that `f` says. Nothing is said of other types, and types that are the same may get the same id. -/
def Renumbers (f : Id → Id') (res : Table Id) (res' : Table Id') (t : Id) : Prop :=
  ∀ u, WithinType res t u → res' (f u) = (res u).map (TypeDef.renumber f)

/-- The error with other ids. -/
def EKind.renumber (f : Id → Id') : EKind Id → EKind Id'
  | .typeNotFound t => .typeNotFound (f t)
  | .wrongShape t => .wrongShape (f t)
  | .wrongLength a e => .wrongLength a e
  | .numberOutOfRange t => .numberOutOfRange (f t)
  | .cannotFindField s => .cannotFindField s
  | .cannotFindVariant s t => .cannotFindVariant s (f t)
  | .custom => .custom

/-- What an encoder leaves (the result and the buffer) with other ids in the error. -/
def encRenumber (f : Id → Id') : Except (EErr Id) Unit × List UInt8 → Except (EErr Id') Unit × List UInt8
  | (.ok (), out) => (.ok (), out)
  | (.error e, out) => (.error ⟨e.path, e.kind.renumber f⟩, out)

/-- What the decoder gives with other ids as contexts of the value. -/
def decodeRenumber (f : Id → Id') : Out DErr (Value Id × List UInt8) → Out DErr (Value Id' × List UInt8)
  | .ok (v, r) => .ok (v.mapContext f, r)
  | .err e => .err e
  | .panic => .panic

/-- What the tracing decoder gives with other ids as contexts: of the value, or of the part of it in the error. -/
def traceRenumber (f : Id → Id') : Out (TErr (Value Id)) (Value Id × List UInt8) → Out (TErr (Value Id')) (Value Id' × List UInt8)
  | .ok (v, r) => .ok (v.mapContext f, r)
  | .err (.fromDecode e) => .err (.fromDecode e)
  | .err (.fromVisitor p v e) => .err (.fromVisitor p (v.mapContext f) e)
  | .panic => .panic

/-- A value of the type `t` contains one of the type `u`, with nothing in front of it that says that it is there. -/
inductive InlineIn (res : Table Id) (t : Id) : Id → Prop
  | field {fs x} (h : res t = some (.composite fs)) (hx : x ∈ fs) : InlineIn res t x.id
  | tuple {ts u} (h : res t = some (.tuple ts)) (hu : u ∈ ts) : InlineIn res t u
  | array {u n} (h : res t = some (.array u n)) : InlineIn res t u
  | compact {u} (h : res t = some (.compact u)) : InlineIn res t u

/-- A chain of types without end in which each contains the next one in that way. -/
def InlineChain (res : Table Id) (t : Id) : Prop := ∃ chain : Nat → Id, chain 0 = t ∧ ∀ n, InlineIn res (chain n) (chain (n + 1))

end SV
