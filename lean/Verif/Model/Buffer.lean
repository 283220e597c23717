import Verif.Model.De
/-
Model of the buffer through which serde's derived code reads types with `#[serde(untagged)]`, `#[serde(tag = "..")]` and `#[serde(flatten)]` (`serde::__private::de`, a dependency:
`Content`, `ContentVisitor`, `ContentDeserializer`): all data is first copied from the deserializer, by `deserialize_any`, and then read from the copy. It is here because
`from_value` (lib.rs:104-109) can be asked for such types, and because values can be parts of them.
-/
namespace SV

/-- serde's `Content`: the data that the buffer can hold. (behind lib.rs:107) -/
inductive Content where
  | bool (b : Bool)
  | num (n : Num)
  | float
  | char (c : Char)
  | str (s : Str)
  | bytes (bs : List UInt8)
  | unit
  | none
  | some (c : Content)
  | newtype (c : Content)
  | seq (cs : List Content)
  | map (es : List (Content × Content))

mutual
/-- `Content::deserialize`. (behind lib.rs:107, with the replies of deserializer.rs:174-794) -/
def deContent : Der → Option Content
  | .mk f => deBuf (f .any)
termination_by structural d => d
/-- `ContentVisitor`: it has no `visit_u128` and no `visit_i128`, and its `visit_enum` is an error. (behind lib.rs:107, with the replies of deserializer.rs:174-794) -/
def deBuf : Reply → Option Content
  | .bool b => some (.bool b)
  | .num n => if n.ty = .u128 ∨ n.ty = .i128 then none else some (.num n)
  | .float => some .float
  | .char c => some (.char c)
  | .str s => some (.str s)
  | .bytes bs => some (.bytes bs)
  | .unit => some .unit
  | .none => some .none
  | .some d => match deContent d with
    | some c => some (.some c)
    | none => none
  | .newtype d => match deContent d with
    | some c => some (.newtype c)
    | none => none
  | .seq _ l => match deContents l with
    | some cs => some (.seq cs)
    | none => none
  | .map _ l => match deContentEntries l with
    | some es => some (.map es)
    | none => none
  | .self | .enum _ _ _ | .error _ => none
/-- The elements of a sequence. (behind lib.rs:107) -/
def deContents : List Der → Option (List Content)
  | [] => some []
  | d :: r => match deContent d with
    | none => none
    | some c => match deContents r with
      | none => none
      | some cs => some (c :: cs)
/-- The entries of a map. (behind lib.rs:107) -/
def deContentEntries : List (Der × Der) → Option (List (Content × Content))
  | [] => some []
  | (k, d) :: r => match deContent k with
    | none => none
    | some key => match deContent d with
      | none => none
      | some c => match deContentEntries r with
        | none => none
        | some es => some ((key, c) :: es)
end

mutual
/-- `ContentDeserializer`: sequences and maps have to be read to their end. Simplification: the methods other than those here, which no `Deserialize` implementation for values, names, numbers and
booleans calls, are errors. (behind deserialize.rs:40-84) -/
def Content.der : Content → Der
  | .bool b => .mk fun h => match h with
    | .any | .bool => .bool b
    | _ => .error (.foreign [])
  | .num n => .mk fun h => match h with
    | .any | .num _ => .num n
    | _ => .error (.foreign [])
  | .float => .mk fun h => match h with
    | .any => .float
    | _ => .error (.foreign [])
  | .char c => .mk fun h => match h with
    | .any => .char c
    | _ => .error (.foreign [])
  | .str s => .mk fun h => match h with
    | .any | .str => .str s
    | _ => .error (.foreign [])
  | .bytes bs => .mk fun h => match h with
    | .any | .str => .bytes bs
    | _ => .error (.foreign [])
  | .unit => .mk fun h => match h with
    | .any => .unit
    | _ => .error (.foreign [])
  | .none => .mk fun h => match h with
    | .any => .none
    | _ => .error (.foreign [])
  | .some c => .mk fun h => match h with
    | .any => .some c.der
    | _ => .error (.foreign [])
  | .newtype c => .mk fun h => match h with
    | .any => .newtype c.der
    | _ => .error (.foreign [])
  | .seq cs => .mk fun h => match h with
    | .any | .seq => .seq true (contentDers cs)
    | _ => .error (.foreign [])
  | .map es => .mk fun h => match h with
    | .any => .map true (contentEntries es)
    | _ => .error (.foreign [])
termination_by structural c => c
/-- `SeqDeserializer::new(content.into_iter().map(ContentDeserializer::new))`. (behind deserialize.rs:40-84) -/
def contentDers : List Content → List Der
  | [] => []
  | c :: cs => c.der :: contentDers cs
/-- `MapDeserializer::new` of the entries. (behind deserialize.rs:40-84) -/
def contentEntries : List (Content × Content) → List (Der × Der)
  | [] => []
  | (k, c) :: es => (k.der, c.der) :: contentEntries es
end

/-- An enum with `#[serde(untagged)]` whose variants are read by `alts`: the first that succeeds on the buffer. (behind lib.rs:107) -/
def deUntagged {A : Type} (alts : List (Der → Option A)) (d : Der) : Option A :=
  match deContent d with
  | none => none
  | some c => alts.findSome? (fun f => f c.der)

end SV
