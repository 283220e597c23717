import Verif.Model.Encode
/-
How often the encoder of values is entered: the functions of `Model/Encode` once more, with a counter next to the result. The counter is
raised at one place only, `Value.encodeC`, which is the entry of `<Value<T> as EncodeAsType>::encode_as_type_to` (encode.rs:27-41). That the
results are those of `Model/Encode` is part of C75.
-/
namespace SV

variable {Id Γ : Type}

/-- A function that writes to `out` and may fail, and the number of calls of `encode_as_type_to` on values that it makes. (encode.rs:32-33) -/
abbrev EncC (Id : Type) := List UInt8 → (Except (EErr Id) Unit × List UInt8) × Nat

/-- Something that does not call `encode_as_type_to` on values. (encode.rs:127, 137, 186) -/
def EncC.leaf (a : EncM Id) : EncC Id := fun out => (a out, 0)
/-- `a?; b`. (encode.rs:141-142) -/
def EncC.seq (a b : EncC Id) : EncC Id := fun out =>
  match a out with
  | ((.ok (), o), n) => ((b o).1, n + (b o).2)
  | ((.error e, o), n) => ((.error e, o), n)
/-- `a.map_err(f)`. (encode.rs:142) -/
def EncC.mapErr (f : EErr Id → EErr Id) (a : EncC Id) : EncC Id := fun out =>
  match a out with
  | ((.ok (), o), n) => ((.ok (), o), n)
  | ((.error e, o), n) => ((.error (f e), o), n)

/-- What the encoders of composites get to see of a value, as `Child`. (encode.rs:283-324) -/
structure CChild (Id : Type) where
  name : Option Str
  enc : Id → EncC Id
  bit : Option Bool

/-- The same without the counter. (encode.rs:283-324) -/
def CChild.erase (c : CChild Id) : Child Id := ⟨c.name, fun t out => (c.enc t out).1, c.bit⟩

/-- Values one after the other at one type (encode.rs:138-151, 161-163). -/
def encItemsC (t : Id) (named : Bool) : Nat → List (CChild Id) → EncC Id
  | _, [] => .leaf fun out => (.ok (), out)
  | k, c :: cs =>
    .seq (.mapErr (fun e => match named, c.name with
        | true, some s => e.atField s
        | _, _ => e.atIdx k) (c.enc t))
      (encItemsC t named (k + 1) cs)

/-- Dependency model, part of `encode_composite_fields_to`: by name. (behind encode.rs:68, 106, 336) -/
def encByNameC (cs : List (CChild Id)) : List (Field Id) → EncC Id
  | [] => .leaf fun out => (.ok (), out)
  | f :: fs =>
    match cs.reverse.find? (fun c => c.name.getD [] == f.name.getD []) with
    | none => .leaf (.fail (.cannotFindField (f.name.getD [])))
    | some c => .seq (.mapErr (fun e => e.atField (f.name.getD [])) (c.enc f.id)) (encByNameC cs fs)

/-- Dependency model, part of `encode_composite_fields_to`: in order. (behind encode.rs:68, 72, 106, 110, 336, 341) -/
def encByOrderC : Nat → List (CChild Id) → List (Field Id) → EncC Id
  | k, c :: cs, f :: fs =>
    .seq (.mapErr (fun e => match c.name with
        | some s => e.atField s
        | none => e.atIdx k) (c.enc f.id))
      (encByOrderC (k + 1) cs fs)
  | _, _, _ => .leaf fun out => (.ok (), out)

/-- Dependency model of `scale_encode::Composite::encode_composite_fields_to` (encode.rs:68, 72). -/
def encFieldsToC (cs : List (CChild Id)) (fs : List (Field Id)) : EncC Id :=
  if fs.any (fun f => f.name.isSome) && cs.any (fun c => c.name.isSome) then encByNameC cs fs
  else if fs.length ≠ cs.length then .leaf (.fail (.wrongLength cs.length fs.length))
  else encByOrderC 0 cs fs

/-- Dependency model of `scale_encode::Composite::encode_composite_as_type_to` (encode.rs:106, 110). -/
def encCompositeAsTypeC (reg : Reg Id) (cs : List (CChild Id)) (t : Id) : EncC Id :=
  match reg.resolve (skip reg t) with
  | none => .leaf (.fail (.typeNotFound (skip reg t)))
  | some (.composite fs) =>
    match cs.any (fun c => c.name.isSome), cs with
    | false, [c] => c.enc (skip reg t)
    | _, _ => encFieldsToC cs fs
  | some (.tuple ts) =>
    match cs with
    | [c] => c.enc (skip reg t)
    | _ => encFieldsToC cs (ts.map (fun t => ⟨none, t⟩))
  | some _ =>
    match cs with
    | [c] => c.enc (skip reg t)
    | _ => .leaf (.fail (.wrongShape (skip reg t)))

/-- `do_encode_composite` (encode.rs:90-176). -/
def doEncodeCompositeC (reg : Reg Id) (cs : List (CChild Id)) (t : Id) : EncC Id :=
  match reg.resolve t with
  | some (.composite _) => encCompositeAsTypeC reg cs t
  | some (.tuple _) => encCompositeAsTypeC reg cs t
  | some (.sequence u) => .seq (.leaf (.write (compactEnc (cs.length % 2 ^ 32)))) (encItemsC u true 0 cs)
  | some (.array u n) => if cs.length ≠ n then .leaf (.fail (.wrongLength cs.length n)) else encItemsC u false 0 cs
  | some (.bitSequence s o) => match encBools 0 (cs.map CChild.erase) with
    | .error e => .leaf fun out => (.error e, out)
    | .ok bs => .leaf (.write (bitsEnc s o bs))
  | _ => match cs with
    | [c] => c.enc t
    | _ => .leaf (.fail (.wrongShape t))

/-- The last attempt of `encode_composite` (encode.rs:211-225). -/
def encLastC (cs : List (CChild Id)) (t : Id) (original : EErr Id) : EncC Id := fun out =>
  match cs with
  | [c] => match c.enc t [] with
    | ((.ok (), tmp), n) => ((.ok (), out ++ tmp), n)
    | ((.error _, _), n) => ((.error original, out), n)
  | _ => ((.error original, out), 0)

/-- `encode_composite` (encode.rs:82-226): the calls of all attempts that are made. -/
def encCompositeC (reg : Reg Id) (cs : List (CChild Id)) (t : Id) : EncC Id := fun out =>
  match doEncodeCompositeC reg cs t [] with
  | ((.ok (), tmp), n) => ((.ok (), out ++ tmp), n)
  | ((.error original, _), n) =>
    match findSingle reg t with
    | (inner, true) =>
      match doEncodeCompositeC reg cs inner [] with
      | ((.ok (), tmp), m) => ((.ok (), out ++ tmp), n + m)
      | ((.error _, _), m) => ((encLastC cs inner original out).1, n + m + (encLastC cs inner original out).2)
    | (_, false) => ((encLastC cs t original out).1, n + (encLastC cs t original out).2)

/-- `encode_variant` (encode.rs:326-344). -/
def encVariantC (reg : Reg Id) (name : Str) (cs : List (CChild Id)) (t : Id) : EncC Id :=
  match reg.resolve (findSingle reg t).1 with
  | some (.variant ds) =>
    match ds.find? (fun d => d.name == name) with
    | none => .leaf (.fail (.cannotFindVariant name (findSingle reg t).1))
    | some d => .seq (.leaf (.write [d.index])) (encFieldsToC cs d.fields)
  | none => .leaf (.fail (.typeNotFound (findSingle reg t).1))
  | some _ => .leaf (.fail (.wrongShape (findSingle reg t).1))

mutual
/-- `<Value<T> as EncodeAsType>::encode_as_type_to` (encode.rs:27-41): one call, and those that it makes. -/
def Value.encodeC (reg : Reg Id) (charToChar : Bool) : Value Γ → Id → EncC Id
  | .mk d _ => fun t out => ((d.encodeC reg charToChar t out).1, 1 + (d.encodeC reg charToChar t out).2)
/-- The match of encode.rs:34-39. -/
def ValueDef.encodeC (reg : Reg Id) (charToChar : Bool) : ValueDef Γ → Id → EncC Id
  | .composite c => encCompositeC reg (c.encChildrenC reg charToChar)
  | .variant (.mk n c) => encVariantC reg n (c.encChildrenC reg charToChar)
  | .primitive p => fun t => .leaf (encPrimitive reg charToChar p t)
  | .bitSequence b => fun t => .leaf (encBits reg b t)
/-- The values with their names (encode.rs:101-112, 332-343). -/
def Composite.encChildrenC (reg : Reg Id) (charToChar : Bool) : Composite Γ → List (CChild Id)
  | .named fs => encNamedC reg charToChar fs
  | .unnamed vs => encUnnamedC reg charToChar vs
/-- `vals.iter().map(|(key, val)| (Some(&**key), CompositeField::new(val)))` (encode.rs:67, 104, 334). -/
def encNamedC (reg : Reg Id) (charToChar : Bool) : List (Str × Value Γ) → List (CChild Id)
  | [] => []
  | (k, v) :: r => ⟨some k, v.encodeC reg charToChar, bitOf v⟩ :: encNamedC reg charToChar r
/-- `vals.iter().map(|val| (None, CompositeField::new(val)))` (encode.rs:71, 109, 339). -/
def encUnnamedC (reg : Reg Id) (charToChar : Bool) : List (Value Γ) → List (CChild Id)
  | [] => []
  | v :: r => ⟨none, v.encodeC reg charToChar, bitOf v⟩ :: encUnnamedC reg charToChar r
end

end SV
