import Verif.Model.De
import Verif.Model.Decode
/-
Model of the functions of /repo/src/serde_impls/deserialize.rs and bitvec_helpers.rs that read values, once more, with what `Model/De.lean` leaves out: the `size_hint`s of the deserializer,
for which these functions reserve memory (deserialize.rs:194, 205, bitvec_helpers.rs:91).
-/
namespace SV

mutual
/-- `Der` with size hints. (deserializer.rs:76-169) -/
inductive HDer where
  | mk (ask : Hint → HReply)
/-- `Reply` with size hints: `seq` has what `SeqAccess::size_hint` returns before the first element is read, `map` what `MapAccess::size_hint` returns when so many keys have been
read. (what the functions of deserializer.rs:174-794 do with `visitor`) -/
inductive HReply where
  | bool (b : Bool)
  | num (n : Num)
  | float
  | char (c : Char)
  | str (s : Str)
  | bytes (bs : List UInt8)
  | unit
  | none
  | some (d : HDer)
  | newtype (d : HDer)
  | seq (closed : Bool) (hint : Option Nat) (elems : List HDer)
  | map (closed : Bool) (hint : Nat → Option Nat) (entries : List (HDer × HDer))
  | self
  | enum (name : HDer) (newtype : HDer) (access : VHint → HReply)
  | error (e : Refusal)
end

/-- Calling a method of a deserializer. (as in lib.rs:107) -/
def HDer.ask : HDer → Hint → HReply
  | .mk f => f

mutual
/-- The deserializer without the size hints. (deserializer.rs:76-169) -/
def HDer.erase : HDer → Der
  | .mk f => .mk fun h => (f h).erase
termination_by structural d => d
/-- The reply without the size hints. (deserializer.rs:174-794) -/
def HReply.erase : HReply → Reply
  | .bool b => .bool b
  | .num n => .num n
  | .float => .float
  | .char c => .char c
  | .str s => .str s
  | .bytes bs => .bytes bs
  | .unit => .unit
  | .none => .none
  | .some d => .some d.erase
  | .newtype d => .newtype d.erase
  | .seq closed _ l => .seq closed (eraseAll l)
  | .map closed _ l => .map closed (eraseEntries l)
  | .self => .self
  | .enum name newtype access => .enum name.erase newtype.erase fun h => (access h).erase
  | .error e => .error e
/-- Elements without the size hints. (deserialize.rs:195) -/
def eraseAll : List HDer → List Der
  | [] => []
  | d :: r => d.erase :: eraseAll r
/-- Entries without the size hints. (deserialize.rs:206) -/
def eraseEntries : List (HDer × HDer) → List (Der × Der)
  | [] => []
  | (k, d) :: r => (k.erase, d.erase) :: eraseEntries r
end

/-- The error of a dependency, which is not told apart here. (deserialize.rs:40-84) -/
def Out.ofOption {A : Type} : Option A → Out Unit A
  | none => .err ()
  | some a => .ok a

mutual
/-- `impl Deserialize for Value` (deserialize.rs:40-48). `al` says for which capacities `Vec::with_capacity` succeeds; values and pairs of a name and a value are not told
apart. -/
def deValueH (al : Nat → Bool) : HDer → Out Unit (Value Unit)
  | .mk f => match deDefH al (f .any) with
    | .ok d => .ok (.mk d ())
    | .err e => .err e
    | .panic => .panic
termination_by structural d => d
/-- `ValueDefVisitor` (deserialize.rs:307-380) with `MapOrBitSeqVisitor` (bitvec_helpers.rs:58-100). The `Vec<bool>` of bitvec_helpers.rs:81 is read by serde, which limits what it reserves
for a size hint. -/
def deDefH (al : Nat → Bool) : HReply → Out Unit (ValueDef Unit)
  | .bool b => .ok (.primitive (.bool b))
  | .num n => .ok (.primitive n.toPrim)
  | .char c => .ok (.primitive (.char c))
  | .str s => .ok (.primitive (.string s))
  | .bytes bs => .ok (.composite (.unnamed (byteVals bs)))
  | .unit => .ok (.composite (.unnamed []))
  | .none => .ok (.variant (.mk "None".toList (.unnamed [])))
  | .some d => match deValueH al d with
    | .ok v => .ok (.variant (.mk "Some".toList (.unnamed [v])))
    | .err e => .err e
    | .panic => .panic
  | .newtype d => match deValueH al d with
    | .ok v => .ok v.value
    | .err e => .err e
    | .panic => .panic
  | .seq _ hint l =>
    if !al (hint.getD 0) then .panic
    else match deValuesH al l with
      | .ok vs => .ok (.composite (.unnamed vs))
      | .err e => .err e
      | .panic => .panic
  | .map _ _ [] => .ok (.composite (.named []))
  | .map closed hint ((k, v) :: r) => match deString k.erase with
    | none => .err ()
    | some key =>
      if key = bitIdent then match deVec deBool v.erase with
        | none => .err ()
        | some bs => if closed ∧ r ≠ [] then .err () else .ok (.bitSequence bs)
      else if !al ((hint 1).getD 0) then .panic
      else match deValueH al v with
        | .err e => .err e
        | .panic => .panic
        | .ok w => match deEntriesH al r with
          | .err e => .err e
          | .panic => .panic
          | .ok es => .ok (.composite (.named ((key, w) :: es)))
  | .enum name newtype _ => match deString name.erase with
    | none => .err ()
    | some n => match deCompositeH al newtype with
      | .err e => .err e
      | .panic => .panic
      | .ok c => .ok (.variant (.mk n c))
  | .float | .self | .error _ => .err ()
/-- `impl Deserialize for Composite` (deserialize.rs:68-75). -/
def deCompositeH (al : Nat → Bool) : HDer → Out Unit (Composite Unit)
  | .mk f => deCompH al (f .any)
/-- `CompositeVisitor` (deserialize.rs:161-211). -/
def deCompH (al : Nat → Bool) : HReply → Out Unit (Composite Unit)
  | .bytes bs => .ok (.unnamed (byteVals bs))
  | .unit => .ok (.unnamed [])
  | .newtype d => deCompositeH al d
  | .seq _ hint l =>
    if !al (hint.getD 0) then .panic
    else match deValuesH al l with
      | .ok vs => .ok (.unnamed vs)
      | .err e => .err e
      | .panic => .panic
  | .map _ hint l =>
    if !al ((hint 0).getD 0) then .panic
    else match deEntriesH al l with
      | .ok es => .ok (.named es)
      | .err e => .err e
      | .panic => .panic
  | .bool _ | .num _ | .float | .char _ | .str _ | .none | .some _ | .self | .enum _ _ _ | .error _ => .err ()
/-- `seq.next_element()` until the end (deserialize.rs:195-197). -/
def deValuesH (al : Nat → Bool) : List HDer → Out Unit (List (Value Unit))
  | [] => .ok []
  | d :: r => match deValueH al d with
    | .err e => .err e
    | .panic => .panic
    | .ok v => match deValuesH al r with
      | .err e => .err e
      | .panic => .panic
      | .ok vs => .ok (v :: vs)
/-- `map.next_entry()` until the end (deserialize.rs:206-208, bitvec_helpers.rs:94-97). -/
def deEntriesH (al : Nat → Bool) : List (HDer × HDer) → Out Unit (List (Str × Value Unit))
  | [] => .ok []
  | (k, d) :: r => match deString k.erase with
    | none => .err ()
    | some key => match deValueH al d with
      | .err e => .err e
      | .panic => .panic
      | .ok v => match deEntriesH al r with
        | .err e => .err e
        | .panic => .panic
        | .ok es => .ok ((key, v) :: es)
end

/-- The loop of `VariantVisitor::visit_map` (deserialize.rs:267-277). -/
def variantLoopH (al : Nat → Bool) : List (HDer × HDer) → Option Str → Option (Composite Unit) → Out Unit (Option Str × Option (Composite Unit))
  | [], name, values => .ok (name, values)
  | (k, d) :: r, name, values => match deString k.erase with
    | none => .err ()
    | some key =>
      if key = "name".toList then match deString d.erase with
        | none => .err ()
        | some n => variantLoopH al r (some n) values
      else if key = "values".toList then match deCompositeH al d with
        | .err e => .err e
        | .panic => .panic
        | .ok c => variantLoopH al r name (some c)
      else .err ()

/-- `impl Deserialize for Variant` (deserialize.rs:77-84) with `VariantVisitor` (deserialize.rs:215-287). -/
def deVariantH (al : Nat → Bool) (d : HDer) : Out Unit (Variant Unit) :=
  match d.ask .any with
  | .enum name newtype _ => match deString name.erase with
    | none => .err ()
    | some n => match deCompositeH al newtype with
      | .err e => .err e
      | .panic => .panic
      | .ok c => .ok (.mk n c)
  | .some d => match deValueH al d with
    | .ok v => .ok (.mk "Some".toList (.unnamed [v]))
    | .err e => .err e
    | .panic => .panic
  | .none => .ok (.mk "None".toList (.unnamed []))
  | .map _ _ l => match variantLoopH al l none none with
    | .ok (some n, some c) => .ok (.mk n c)
    | .panic => .panic
    | _ => .err ()
  | _ => .err ()

mutual
/-- The deserializers of deserializer.rs with their size hints: serde's `SeqDeserializer` and `MapDeserializer` know how much is left. (deserializer.rs:419, 422, 433, 435, bitvec_helpers.rs:51) -/
def Der.sized : Der → HDer
  | .mk f => .mk fun h => (f h).sized
termination_by structural d => d
/-- Their replies. (deserializer.rs:174-794) -/
def Reply.sized : Reply → HReply
  | .bool b => .bool b
  | .num n => .num n
  | .float => .float
  | .char c => .char c
  | .str s => .str s
  | .bytes bs => .bytes bs
  | .unit => .unit
  | .none => .none
  | .some d => .some d.sized
  | .newtype d => .newtype d.sized
  | .seq closed l => .seq closed (some l.length) (sizeAll l)
  | .map closed l => .map closed (fun k => some (l.length - k)) (sizeEntries l)
  | .self => .self
  | .enum name newtype access => .enum name.sized newtype.sized fun h => (access h).sized
  | .error e => .error e
/-- Elements. (deserializer.rs:422) -/
def sizeAll : List Der → List HDer
  | [] => []
  | d :: r => d.sized :: sizeAll r
/-- Entries. (deserializer.rs:419) -/
def sizeEntries : List (Der × Der) → List (HDer × HDer)
  | [] => []
  | (k, d) :: r => (k.sized, d.sized) :: sizeEntries r
end

end SV
