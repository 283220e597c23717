import Verif.Model.De
/-
Types that implement serde's `Serialize` and `Deserialize`: what `#[derive(Serialize, Deserialize)]` and serde's own implementations do. None of this code is in /repo:
it is a *dependency model* of serde 1 and serde_derive 1, for users who call `to_value` and `from_value` (/repo/src/lib.rs:104-151) with types of their own.
-/
namespace SV

mutual
/-- A Rust type with derived (or serde's own) `Serialize` and `Deserialize`. (the `T` of lib.rs:104, 149) -/
inductive Ty where
  | bool
  | num (t : NumTy)
  | char
  | string
  /-- `serde_bytes::ByteBuf` -/
  | bytes
  | unit
  /-- `struct S;` -/
  | unitStruct
  /-- `Option<T>` -/
  | option (t : Ty)
  /-- `struct S(T);` -/
  | newtype (t : Ty)
  /-- `Vec<T>` -/
  | seq (t : Ty)
  /-- `(A, B, ..)` and `[T; N]`, not empty for tuples (`()` is `unit`) -/
  | tuple (ts : List Ty)
  /-- `struct S();`, `struct S(A, B, ..);` -/
  | tupleStruct (ts : List Ty)
  /-- `struct S { a: A, .. }` -/
  | struct (fs : List (Str × Ty))
  | enum (vs : List (Str × VTy))
  /-- A map from `String`s; from `char`s if `chars`. -/
  | map (chars : Bool) (t : Ty)
  /-- `Value<()>` -/
  | value
/-- A variant of an `enum`. (the `T` of lib.rs:104, 149) -/
inductive VTy where
  | unit
  | newtype (t : Ty)
  | tuple (ts : List Ty)
  | struct (fs : List (Str × Ty))
end

/-- The data of such types. `list` is for sequences, tuples and structs (the values of the fields in the declared order). Maps are their entries in the order of
insertion; the values of `char` keys are strings of length one. (the `T` of lib.rs:104, 149) -/
inductive Dat where
  | bool (b : Bool)
  | num (n : Num)
  | char (c : Char)
  | str (s : Str)
  | bytes (bs : List UInt8)
  | unit
  | none
  | some (d : Dat)
  | list (ds : List Dat)
  | enum (variant : Str) (ds : List Dat)
  | map (es : List (Str × Dat))
  | value (v : Value Unit)

/-- `f` on all elements. (behind lib.rs:150) -/
def serAll (f : Dat → Option Ser) : List Dat → Option (List Ser)
  | [] => some []
  | d :: ds => match f d, serAll f ds with
    | some s, some ss => some (s :: ss)
    | _, _ => none

/-- The entries of a map: keys are strings, or characters. Keys do not repeat. (behind lib.rs:150) -/
def serMap (chars : Bool) (f : Dat → Option Ser) : List (Str × Dat) → Option (List (Ser × Ser))
  | [] => some []
  | (k, d) :: es => match f d, serMap chars f es with
    | some s, some ss =>
      if k ∈ es.map (fun p => p.1) then none
      else match chars, k with
        | false, k => some ((.str k, s) :: ss)
        | true, [c] => some ((.char c, s) :: ss)
        | true, _ => none
    | _, _ => none

mutual
/-- What the `Serialize` implementation of the type does with the data; `none` if the data is not of the type. (behind lib.rs:150) -/
def Ty.ser : Ty → Dat → Option Ser
  | .bool, .bool b => some (.bool b)
  | .num t, .num n => if n.ty = t then some (.num n) else none
  | .char, .char c => some (.char c)
  | .string, .str s => some (.str s)
  | .bytes, .bytes bs => some (.bytes bs)
  | .unit, .unit => some .unit
  | .unitStruct, .unit => some .unitStruct
  | .option _, .none => some .none
  | .option t, .some d => (t.ser d).map .some
  | .newtype t, .list [d] => (t.ser d).map .newtypeStruct
  | .seq t, .list ds => (serAll t.ser ds).map .seq
  | .tuple ts, .list ds => (Ty.sers ts ds).map .tuple
  | .tupleStruct ts, .list ds => (Ty.sers ts ds).map .tupleStruct
  | .struct fs, .list ds => (Ty.serFields fs ds).map .struct
  | .enum vs, .enum name ds => Ty.serVariant vs name ds
  | .map chars t, .map es => (serMap chars t.ser es).map .map
  | .value, .value v => some v.serialize
  | _, _ => none
termination_by structural t => t
/-- The elements of a tuple. (behind lib.rs:150) -/
def Ty.sers : List Ty → List Dat → Option (List Ser)
  | [], [] => some []
  | t :: ts, d :: ds => match t.ser d, Ty.sers ts ds with
    | some s, some ss => some (s :: ss)
    | _, _ => none
  | _, _ => none
/-- The fields of a struct. (behind lib.rs:150) -/
def Ty.serFields : List (Str × Ty) → List Dat → Option (List (Str × Ser))
  | [], [] => some []
  | (n, t) :: ts, d :: ds => match t.ser d, Ty.serFields ts ds with
    | some s, some ss => some ((n, s) :: ss)
    | _, _ => none
  | _, _ => none
/-- The variant of an enum. (behind lib.rs:150) -/
def Ty.serVariant : List (Str × VTy) → Str → List Dat → Option Ser
  | [], _, _ => none
  | (n, v) :: vs, name, ds => if n = name then v.ser n ds else Ty.serVariant vs name ds
/-- One variant. (behind lib.rs:150) -/
def VTy.ser : VTy → Str → List Dat → Option Ser
  | .unit, n, [] => some (.unitVariant n)
  | .newtype t, n, [d] => (t.ser d).map (.newtypeVariant n)
  | .tuple ts, n, ds => (Ty.sers ts ds).map (.tupleVariant n)
  | .struct fs, n, ds => (Ty.serFields fs ds).map (.structVariant n)
  | _, _, _ => none
end

/-! ### Deserialize -/

mutual
/-- serde's `IgnoredAny::deserialize`: reads anything; `false` is an error. (behind lib.rs:107) -/
def deIgnored : Der → Bool
  | .mk f => deIgnoredR (f .ignored)
termination_by structural d => d
/-- The visitor of `IgnoredAny`. An enum is read as a newtype variant. (behind lib.rs:107) -/
def deIgnoredR : Reply → Bool
  | .some d => deIgnored d
  | .newtype d => deIgnored d
  | .seq _ l => deIgnoredL l
  | .map _ l => deIgnoredM l
  | .enum n d _ => deIgnored n && deIgnored d
  | .self => true
  | .error _ => false
  | _ => true
/-- All elements. (behind lib.rs:107) -/
def deIgnoredL : List Der → Bool
  | [] => true
  | d :: r => deIgnored d && deIgnoredL r
/-- All entries. (behind lib.rs:107) -/
def deIgnoredM : List (Der × Der) → Bool
  | [] => true
  | (k, v) :: r => deIgnored k && deIgnored v && deIgnoredM r
end

/-- The derived `__Field` identifier: matched by name. (Identifiers given as an index or as bytes are not modelled: no deserializer of this model gives
them.) (behind lib.rs:107) -/
def deIdent (d : Der) : Option Str :=
  match d.visit .ident with
  | .str s => some s
  | .char c => some [c]
  | _ => none

/-- All keys of a map of fields. (behind lib.rs:107) -/
def identKeys : List (Der × Der) → Option (List (Str × Der))
  | [] => some []
  | (k, d) :: r => match deIdent k, identKeys r with
    | some s, some es => some ((s, d) :: es)
    | _, _ => none

/-- serde's `char::deserialize`: chars, and strings of one char. (behind lib.rs:107) -/
def deChar (d : Der) : Option Char :=
  match d.visit .char with
  | .char c => some c
  | .str [c] => some c
  | _ => none

/-- serde_bytes' `ByteBuf::deserialize`: `visit_bytes`, `visit_byte_buf`, `visit_seq` of bytes, strings, and characters (`visit_char` forwards to `visit_str`). (behind lib.rs:107) -/
def deBytes (d : Der) : Option (List UInt8) :=
  match d.visit .bytes with
  | .bytes bs => some bs
  | .seq _ l => (allOf (deNum .u8) l).map (fun ns => ns.map Num.toU8)
  | .str s => some (utf8Bytes s)
  | .char c => some (utf8Bytes [c])
  | _ => none

/-- Insert into a map: a key that is there already gets the new value. (behind lib.rs:107) -/
def insertMap (es : List (Str × Dat)) (k : Str) (d : Dat) : List (Str × Dat) :=
  if k ∈ es.map (fun p => p.1) then es.map (fun p => if p.1 = k then (k, d) else p) else es ++ [(k, d)]

/-- Reading the entries of a map one by one. (behind lib.rs:107) -/
def deMap (key : Der → Option Str) (f : Der → Option Dat) : List (Der × Der) → List (Str × Dat) → Option (List (Str × Dat))
  | [], acc => some acc
  | (k, v) :: r, acc => match key k with
    | none => none
    | some s => match f v with
      | none => none
      | some d => deMap key f r (insertMap acc s d)

/-- serde's `missing_field`: an absent field is an error, unless its type is `Option`. (behind lib.rs:107) -/
def Ty.missing : Ty → Option Dat
  | .option _ => some .none
  | _ => none

/-- The value of field `n` among the entries with known keys: `none` if there are several (`duplicate field`). (behind lib.rs:107) -/
def pickField (n : Str) (es : List (Str × Der)) : Option (Option Der) :=
  match es.filter (fun p => decide (p.1 = n)) with
  | [] => some none
  | [(_, d)] => some (some d)
  | _ => none

/-- The visitor of a struct (or of a variant with named fields) with fields `names`: `visit_map` matches entries with fields by name (`byName`), ignores other entries, and
rejects duplicates; `visit_seq` takes the fields in order (`inOrder`). (behind lib.rs:107) -/
def structOf (names : List Str) (inOrder : Bool → List Der → Option (List Dat)) (byName : List (Str × Der) → Option (List Dat)) : Reply → Option (List Dat)
  | .seq closed l => inOrder closed l
  | .map _ l => match identKeys l with
    | none => none
    | some es => if es.all (fun p => decide (p.1 ∈ names) || deIgnored p.2) then byName es else none
  | _ => none

mutual
/-- `T::deserialize` for such a type. (behind lib.rs:107) -/
def Ty.de : Ty → Der → Option Dat
  | .bool, d => (deBool d).map .bool
  | .num t, d => (deNum t d).map .num
  | .char, d => (deChar d).map .char
  | .string, d => (deString d).map .str
  | .bytes, d => (deBytes d).map .bytes
  | .unit, d => match d.visit .unit with
    | .unit => some .unit
    | _ => none
  | .unitStruct, d => match d.visit .unitStruct with
    | .unit => some .unit
    | _ => none
  | .option t, d => match d.visit .option with
    | .none => some .none
    | .unit => some .none
    | .some d => (t.de d).map .some
    | _ => none
  | .newtype t, d => match d.visit .newtypeStruct with
    | .newtype d => (t.de d).map (fun x => .list [x])
    | .seq closed (d :: r) => if closed ∧ r ≠ [] then none else (t.de d).map (fun x => .list [x])
    | _ => none
  | .seq t, d => match d.visit .seq with
    | .seq _ l => (allOf t.de l).map .list
    | _ => none
  | .tuple ts, d => match d.visit (.tuple ts.length) with
    | .seq closed l => (Ty.deList ts closed l).map .list
    | _ => none
  | .tupleStruct ts, d => match d.visit (.tupleStruct ts.length) with
    | .seq closed l => (Ty.deList ts closed l).map .list
    | _ => none
  | .struct fs, d => (structOf (fs.map (fun p => p.1)) (Ty.deFieldList fs) (Ty.deFields fs) (d.visit .struct)).map .list
  | .enum vs, d => match d.visit .enum with
    | .enum n c access => match deIdent n with
      | none => none
      | some name => (Ty.deVariant vs name c access).map (.enum name)
    | _ => none
  | .map chars t, d => match d.visit .map with
    | .map _ l => (deMap (if chars then fun k => (deChar k).map (fun c => [c]) else deString) t.de l []).map .map
    | _ => none
  | .value, d => (deValue d).map .value
termination_by structural t => t
/-- `visit_seq` for tuples and structs: one element per type; elements that are left over are an error if the deserializer says so. (behind lib.rs:107) -/
def Ty.deList : List Ty → Bool → List Der → Option (List Dat)
  | [], closed, l => if closed ∧ l ≠ [] then none else some []
  | _ :: _, _, [] => none
  | t :: ts, closed, d :: l => match t.de d with
    | none => none
    | some x => match Ty.deList ts closed l with
      | none => none
      | some xs => some (x :: xs)
/-- `visit_seq` of a struct. (behind lib.rs:107) -/
def Ty.deFieldList : List (Str × Ty) → Bool → List Der → Option (List Dat)
  | [], closed, l => if closed ∧ l ≠ [] then none else some []
  | _ :: _, _, [] => none
  | (_, t) :: ts, closed, d :: l => match t.de d with
    | none => none
    | some x => match Ty.deFieldList ts closed l with
      | none => none
      | some xs => some (x :: xs)
/-- `visit_map` of a struct. Simplification: the code reads the entries in their order and not by field; this makes a difference only for which of several errors is
returned, and errors are not told apart here. (`Model/DeErr.lean` has the errors and the order of the code; it is proved to agree with this.) (behind lib.rs:107) -/
def Ty.deFields : List (Str × Ty) → List (Str × Der) → Option (List Dat)
  | [], _ => some []
  | (n, t) :: ts, es => match pickField n es with
    | none => none
    | some e => match (match e with | some d => t.de d | none => t.missing) with
      | none => none
      | some x => match Ty.deFields ts es with
        | none => none
        | some xs => some (x :: xs)
/-- The variant of the given name. (behind lib.rs:107) -/
def Ty.deVariant : List (Str × VTy) → Str → Der → (VHint → Reply) → Option (List Dat)
  | [], _, _, _ => none
  | (n, v) :: vs, name, c, access => if n = name then v.de c access else Ty.deVariant vs name c access
/-- The contents of a variant. (behind lib.rs:107) -/
def VTy.de : VTy → Der → (VHint → Reply) → Option (List Dat)
  | .unit, _, access => match access .unit with
    | .unit => some []
    | _ => none
  | .newtype t, c, _ => (t.de c).map (fun x => [x])
  | .tuple ts, _, access => match access (.tuple ts.length) with
    | .seq closed l => Ty.deList ts closed l
    | _ => none
  | .struct fs, _, access => structOf (fs.map (fun p => p.1)) (Ty.deFieldList fs) (Ty.deFields fs) (access .struct)
end

end SV
