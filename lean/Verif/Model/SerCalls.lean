import Verif.Model.Serde
/-
Model of the compound serializers of /repo/src/serde_impls/serializer.rs as state machines, one transition per call of their methods. (`Model/Serde` has what comes
of implementations of `Serialize` that stop at the first error and call `serialize_key` and `serialize_value` in turn.) An argument `&T` of a call is modelled by what
`value.serialize(ValueSerializer)` returns for it, the only thing that is done with it.
-/
namespace SV

/-- What `value.serialize(ValueSerializer)` returns. (serializer.rs:233, 332, 353) -/
abbrev Inner := Except SerErr (Value Unit)

/-- `struct UnnamedCompositeSerializer` (serializer.rs:214-218). -/
structure SeqSer where
  variantName : Option Str
  values : List (Value Unit)

/-- `UnnamedCompositeSerializer::new_composite` (serializer.rs:221-223). -/
def SeqSer.newComposite : SeqSer := ⟨none, []⟩

/-- `UnnamedCompositeSerializer::new_variant` (serializer.rs:225-227). -/
def SeqSer.newVariant (name : Str) : SeqSer := ⟨some name, []⟩

/-- `UnnamedCompositeSerializer::serialize_element` (serializer.rs:229-236), which is also `serialize_field` (serializer.rs:282-307). -/
def SeqSer.element (s : SeqSer) (x : Inner) : Except SerErr Unit × SeqSer :=
  match x with
  | .error e => (.error e, s)
  | .ok inner => (.ok (), { s with values := s.values ++ [inner] })

/-- `UnnamedCompositeSerializer::end` (serializer.rs:238-243). -/
def SeqSer.end (s : SeqSer) : Value Unit :=
  match s.variantName with
  | some name => .variant name (.unnamed s.values)
  | none => .unnamedComposite s.values

/-- `struct NamedCompositeSerializer` (serializer.rs:311-316). -/
structure MapSer where
  variantName : Option Str
  values : List (Str × Value Unit)
  key : Option Str

/-- `NamedCompositeSerializer::new_composite` (serializer.rs:319-321). -/
def MapSer.newComposite : MapSer := ⟨none, [], none⟩

/-- `NamedCompositeSerializer::new_variant` (serializer.rs:323-325). -/
def MapSer.newVariant (name : Str) : MapSer := ⟨some name, [], none⟩

/-- `NamedCompositeSerializer::serialize_field` (serializer.rs:327-335). -/
def MapSer.field (s : MapSer) (key : Str) (x : Inner) : Except SerErr Unit × MapSer :=
  match x with
  | .error e => (.error e, s)
  | .ok inner => (.ok (), { s with values := s.values ++ [(key, inner)] })

/-- `NamedCompositeSerializer::end` (serializer.rs:337-342). -/
def MapSer.end (s : MapSer) : Value Unit :=
  match s.variantName with
  | some name => .variant name (.named s.values)
  | none => .namedComposite s.values

/-- `SerializeMap::serialize_key` (serializer.rs:349-364). -/
def MapSer.setKey (s : MapSer) (x : Inner) : Except SerErr Unit × MapSer :=
  match x with
  | .error e => (.error e, s)
  | .ok inner => match keyOf inner with
    | .error e => (.error e, s)
    | .ok key => (.ok (), { s with key := some key })

/-- `SerializeMap::serialize_value` (serializer.rs:366-372); `none` is the panic of `expect`. -/
def MapSer.value (s : MapSer) (x : Inner) : Option (Except SerErr Unit × MapSer) :=
  match s.key with
  | none => none
  | some key => some (MapSer.field { s with key := none } key x)

/-- A call of a method of `SerializeMap`. `entry` is `serialize_entry`, whose default implementation (serde) calls the other two. (serializer.rs:345-377) -/
inductive MapCall where
  | key (x : Inner)
  | value (x : Inner)
  | entry (k x : Inner)

/-- The call of a method of `SerializeMap`: what it returns, and the new state; `none` for a panic. (serializer.rs:345-377) -/
def MapSer.call (s : MapSer) : MapCall → Option (Except SerErr Unit × MapSer)
  | .key x => some (s.setKey x)
  | .value x => s.value x
  | .entry k x => match s.setKey k with
    | (.error e, s') => some (.error e, s')
    | (.ok (), s') => s'.value x

/-- Calls one after the other, whatever each of them returns. (serializer.rs:345-377) -/
def MapSer.calls (s : MapSer) : List MapCall → Option MapSer
  | [] => some s
  | c :: cs => match s.call c with
    | none => none
    | some (_, s') => s'.calls cs

/-- Elements one after the other, whatever is returned. (serializer.rs:229-236) -/
def SeqSer.calls (s : SeqSer) : List Inner → SeqSer
  | [] => s
  | x :: xs => (s.element x).2.calls xs

/-- Fields one after the other, whatever is returned. (serializer.rs:327-335) -/
def MapSer.fields (s : MapSer) : List (Str × Inner) → MapSer
  | [] => s
  | (k, x) :: xs => (s.field k x).2.fields xs

/-- Calls with `?` after each of them: what the implementations of `Serialize` that serde derives do. (serializer.rs:345-377) -/
def MapSer.callsQ (s : MapSer) : List MapCall → Option (Except SerErr MapSer)
  | [] => some (.ok s)
  | c :: cs => match s.call c with
    | none => none
    | some (.error e, _) => some (.error e)
    | some (.ok (), s') => s'.callsQ cs

/-- Elements with `?` after each of them. (serializer.rs:229-236) -/
def SeqSer.callsQ (s : SeqSer) : List Inner → Except SerErr SeqSer
  | [] => .ok s
  | x :: xs => match s.element x with
    | (.error e, _) => .error e
    | (.ok (), s') => s'.callsQ xs

/-- Fields with `?` after each of them. (serializer.rs:327-335) -/
def MapSer.fieldsQ (s : MapSer) : List (Str × Inner) → Except SerErr MapSer
  | [] => .ok s
  | (k, x) :: xs => match s.field k x with
    | (.error e, _) => .error e
    | (.ok (), s') => s'.fieldsQ xs

end SV
