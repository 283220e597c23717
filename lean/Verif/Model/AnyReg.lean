import Verif.Model.Decode
import Verif.Model.Trace
/-
Decoding with type registries of any kind, also those with types that contain themselves inline (which `Reg` excludes). The definitions are those of
`Model/Decode`, which need nothing of the registry but `resolve`; C85 ties the two.
-/
namespace SV

variable {Id Γ : Type}

/-- Any implementation of `TypeResolver` (dependency model): what the ids stand for, without the assumption that `Reg` makes. (decode.rs:31-38) -/
abbrev Table (Id : Type) := Id → Option (TypeDef Id)

/-- `visitCompact` with any table. (behind decode.rs:40-45) -/
def visitCompactT (res : Table Id) (t : Id) (bs : List UInt8) : Except DErr (DStep Id) :=
  match res t with
  | none => .error .typeNotFound
  | some (.primitive p) => leafStep (readCompactPrim p bs)
  | some (.composite fs) => if fs.length = 1 then .ok (.composite fs bs) else .error .cannotDecodeCompact
  | some (.tuple ts) => if ts.length = 1 then .ok (.items ts bs) else .error .cannotDecodeCompact
  | some _ => .error .cannotDecodeCompact

/-- `visitPlain` with any table. (behind decode.rs:40-45) -/
def visitPlainT (res : Table Id) (t : Id) (bs : List UInt8) : Except DErr (DStep Id) :=
  match res t with
  | none => .error .typeNotFound
  | some (.primitive p) => leafStep (readPrim p bs)
  | some (.composite fs) => .ok (.composite fs bs)
  | some (.tuple ts) => .ok (.items ts bs)
  | some (.array t n) => .ok (.items (List.replicate n t) bs)
  | some (.sequence t) => match compactDec 64 bs with
    | none => .error .codec
    | some (n, r) => .ok (.items (List.replicate n t) r)
  | some (.variant vs) => match bs with
    | [] => .error .codec
    | i :: r => match vs.find? (fun v => v.index == i) with
      | none => .error (.variantNotFound i)
      | some v => .ok (.variant v.name v.fields r)
  | some (.bitSequence s o) => match bitsDec s o bs with
    | none => .error .codec
    | some (b, r) => .ok (.leaf (.bits b) r)
  | some (.compact _) => .error .cannotDecodeCompact

/-- `visit` with any table. (behind decode.rs:40-45, 79, 371, 380) -/
def visitT (res : Table Id) (compact : Bool) (t : Id) (bs : List UInt8) : Except DErr (Visit Id) :=
  if compact then
    match visitCompactT res t bs with
    | .error e => .error e
    | .ok s => .ok ⟨t, true, s⟩
  else
    match res t with
    | some (.compact u) => match visitCompactT res u bs with
      | .error e => .error e
      | .ok s => .ok ⟨u, true, s⟩
    | _ => match visitPlainT res t bs with
      | .error e => .error e
      | .ok s => .ok ⟨t, false, s⟩

/-- `decode_with_visitor` with `DecodeValueVisitor` (decode.rs:181-354) and any table: the recursion depth is bounded by the first argument; `none` is
running out of it. -/
def decT (res : Table Id) (al : Nat → Bool) (ctx : Id → Γ) : Nat → Bool → Id → List UInt8 → Option (Out DErr (Value Γ × List UInt8))
  | 0, _, _, _ => none
  | n + 1, c, t, bs =>
    match visitT res c t bs with
    | .error e => some (.err e)
    | .ok ⟨ty, _, .leaf l r⟩ => some (.ok (leafValue ctx ty l, r))
    | .ok ⟨ty, c, .items ids r⟩ =>
      mkVal (fun cs => .mk (.composite cs) (ctx ty)) (decUnnamed al (decT res al ctx n c) ids r)
    | .ok ⟨ty, c, .composite fs r⟩ =>
      mkVal (fun cs => .mk (.composite cs) (ctx ty)) (decComposite al (decT res al ctx n c) fs r)
    | .ok ⟨ty, c, .variant name fs r⟩ =>
      mkVal (fun cs => .mk (.variant (.mk name cs)) (ctx ty)) (decComposite al (decT res al ctx n c) fs r)

/-- What a computation gives with enough fuel; `none` if it never gives anything. (decode.rs:40-45: the code recurses without a bound) -/
noncomputable def limit {A : Type} (f : Nat → Option A) : Option A :=
  open Classical in if h : ∃ n r, f n = some r then some h.choose_spec.choose else none

/-- `decode_value_as_type` (decode.rs:31-46, with `ctx := id`) and `Value::<()>::decode_as_type` (decode.rs:124-132, with `ctx := fun _ => ()`) with any table. `none`: the call never
returns (it recurses until the stack overflows). -/
noncomputable def decodeT (ctx : Id → Γ) (res : Table Id) (al : Nat → Bool) (t : Id) (bs : List UInt8) : Option (Out DErr (Value Γ × List UInt8)) :=
  limit (fun n => decT res al ctx n false t bs)

/-- `decode_composite_as_fields` (decode.rs:60-68, and 97-105) with any table. `none`: the call never returns. -/
noncomputable def decodeFieldsT (ctx : Id → Γ) (res : Table Id) (al : Nat → Bool) (fs : List (Field Id)) (bs : List UInt8) :
    Option (Out (DErr × List UInt8) (Composite Γ × List UInt8)) :=
  limit (fun n => decComposite al (decT res al ctx n false) fs bs)

/-- `decode_with_visitor` with `TraceDecodingVisitor` (visitor.rs:115-329) and any table, with bounded recursion depth; `none` is running out of it. -/
def trT (res : Table Id) (al : Nat → Bool) : Nat → Bool → Path → Id → List UInt8 → Option (Out (TErr (Value Id)) (Value Id × List UInt8))
  | 0, _, _, _, _ => none
  | n + 1, c, path, t, bs =>
    match visitT res c t bs with
    | .error e => some (.err (.fromDecode e))
    | .ok ⟨ty, _, .leaf l r⟩ => some (.ok (trLeaf ty l, r))
    | .ok ⟨ty, c, .items ids r⟩ => trMkVal ty (trUnnamed al (trT res al n c) path ids r)
    | .ok ⟨ty, c, .composite fs r⟩ => trMkVal ty (trGroupOf al (trT res al n c) path fs r)
    | .ok ⟨ty, c, .variant name fs r⟩ => trMkVariant path ty name (trGroupOf al (trT res al n c) path fs r)

/-- `scale::tracing::decode_as_type` (lib.rs:257-271) with any table. `none`: the call never returns. -/
noncomputable def traceDecodeT (res : Table Id) (al : Nat → Bool) (t : Id) (bs : List UInt8) : Option (Out (TErr (Value Id)) (Value Id × List UInt8)) :=
  limit (fun n => trT res al n false [] t bs)

end SV
