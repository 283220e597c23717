import Verif.Model.Registry
/-
Model of /repo/src/scale_impls/decode.rs.

`visit` is the dependency model of `scale_decode::visitor::decode_with_visitor` (scale-decode 0.16): what it reads from the
input before calling one of the visitor's `visit_*` functions, and what it hands to that function. The rest is the visitor in
decode.rs.
-/
namespace SV

variable {Id Γ : Type}

/-- `scale_decode::visitor::DecodeError` (decode.rs:23), by kind. -/
inductive DErr where
  | typeNotFound
  | codec
  | invalidStr
  | invalidChar
  | variantNotFound (index : UInt8)
  | cannotDecodeCompact
  | tooManyEntries
  deriving DecidableEq

/-- How a call ends: with a result, with an error, or with a panic (here only: a `Vec::with_capacity` that cannot be
satisfied). (the `Result`s of decode.rs:35, 54, 95, and the panics of decode.rs:78, 369, 379) -/
inductive Out (E A : Type) where
  | ok (a : A)
  | err (e : E)
  | panic
  deriving DecidableEq

/-- What the leaf `visit_*` functions are given. (decode.rs:190-293, 315-332) -/
inductive Leaf where
  | bool (b : Bool)
  | char (c : Char)
  | str (s : Str)
  | uint (n : U128)
  | int (n : I128)
  | u256 (b : Bytes32)
  | i256 (b : Bytes32)
  | bits (b : List Bool)

/-- The next `visit_*` call: of a leaf, already read; of a sequence, array or tuple, with the types of its items; of a composite or
variant with its fields. `bytes` is the input after what has been read. (decode.rs:190-353) -/
inductive DStep (Id : Type) where
  | leaf (l : Leaf) (bytes : List UInt8)
  | items (ids : List Id) (bytes : List UInt8)
  | composite (fields : List (Field Id)) (bytes : List UInt8)
  | variant (name : Str) (fields : List (Field Id)) (bytes : List UInt8)

/-- Dependency model: a fixed width unsigned integer of `k` bytes. (behind decode.rs:40-45) -/
def readUint (k : Nat) (bs : List UInt8) : Except DErr (Leaf × List UInt8) :=
  match takeN k bs with
  | none => .error .codec
  | some (p, r) =>
    match U128.ofNat? (leVal p) with
    | some n => .ok (.uint n, r)
    | none => .error .codec

/-- Dependency model: a fixed width signed integer of `k` bytes. (behind decode.rs:40-45) -/
def readInt (k : Nat) (bs : List UInt8) : Except DErr (Leaf × List UInt8) :=
  match takeN k bs with
  | none => .error .codec
  | some (p, r) =>
    match I128.ofInt? (leValInt p) with
    | some n => .ok (.int n, r)
    | none => .error .codec

/-- Dependency model: 32 bytes. (behind decode.rs:40-45) -/
def read32 (mk : Bytes32 → Leaf) (bs : List UInt8) : Except DErr (Leaf × List UInt8) :=
  if h : 32 ≤ bs.length then .ok (mk ⟨bs.take 32, by simp; omega⟩, bs.drop 32) else .error .codec

/-- Dependency model: the primitives, outside of a `Compact`. A `char` is a `u32` which has to be a Unicode scalar value. The UTF-8
check of a string is made by `Str::as_str` in decode.rs:331; the bytes have been found to be there before. -/
def readPrim (p : Prim) (bs : List UInt8) : Except DErr (Leaf × List UInt8) :=
  match p with
  | .bool => match bs with
    | [] => .error .codec
    | b :: r => if b = 0 then .ok (.bool false, r) else if b = 1 then .ok (.bool true, r) else .error .codec
  | .char => match takeN 4 bs with
    | none => .error .codec
    | some (p, r) => if h : (leVal p).isValidChar then .ok (.char (Char.ofNatAux (leVal p) h), r) else .error .invalidChar
  | .str => match compactDec 64 bs with
    | none => .error .codec
    | some (n, r) => match takeN n r with
      | none => .error .codec
      | some (p, r) => match fromUtf8 p with
        | none => .error .invalidStr
        | some s => .ok (.str s, r)
  | .u8 => readUint 1 bs
  | .u16 => readUint 2 bs
  | .u32 => readUint 4 bs
  | .u64 => readUint 8 bs
  | .u128 => readUint 16 bs
  | .u256 => read32 .u256 bs
  | .i8 => readInt 1 bs
  | .i16 => readInt 2 bs
  | .i32 => readInt 4 bs
  | .i64 => readInt 8 bs
  | .i128 => readInt 16 bs
  | .i256 => read32 .i256 bs

/-- Dependency model: a `Compact<uN>`. (behind decode.rs:40-45) -/
def readCompact (bits : Nat) (bs : List UInt8) : Except DErr (Leaf × List UInt8) :=
  match compactDec bits bs with
  | none => .error .codec
  | some (n, r) =>
    match U128.ofNat? n with
    | some n => .ok (.uint n, r)
    | none => .error .codec

/-- Dependency model: the primitives inside of a `Compact`; only unsigned integers up to 128 bits can be there. (behind decode.rs:40-45) -/
def readCompactPrim (p : Prim) (bs : List UInt8) : Except DErr (Leaf × List UInt8) :=
  match p with
  | .u8 => readCompact 8 bs
  | .u16 => readCompact 16 bs
  | .u32 => readCompact 32 bs
  | .u64 => readCompact 64 bs
  | .u128 => readCompact 128 bs
  | _ => .error .cannotDecodeCompact

/-- A leaf and the bytes after it as a `DStep`. (behind decode.rs:40-45) -/
def leafStep (r : Except DErr (Leaf × List UInt8)) : Except DErr (DStep Id) :=
  match r with
  | .error e => .error e
  | .ok (l, r) => .ok (.leaf l r)

/-- Dependency model of `decode_with_visitor_maybe_compact(.., is_compact = true)`: only unsigned integers, and composites and
tuples with exactly one field. (behind decode.rs:40-45) -/
def visitCompact (reg : Reg Id) (t : Id) (bs : List UInt8) : Except DErr (DStep Id) :=
  match reg.resolve t with
  | none => .error .typeNotFound
  | some (.primitive p) => leafStep (readCompactPrim p bs)
  | some (.composite fs) => if fs.length = 1 then .ok (.composite fs bs) else .error .cannotDecodeCompact
  | some (.tuple ts) => if ts.length = 1 then .ok (.items ts bs) else .error .cannotDecodeCompact
  | some _ => .error .cannotDecodeCompact

/-- Dependency model of `decode_with_visitor_maybe_compact(.., is_compact = false)` for types other than `Compact`. (behind decode.rs:40-45) -/
def visitPlain (reg : Reg Id) (t : Id) (bs : List UInt8) : Except DErr (DStep Id) :=
  match reg.resolve t with
  | none => .error .typeNotFound
  | some (.primitive p) => leafStep (readPrim p bs)
  | some (.composite fs) => .ok (.composite fs bs)
  | some (.tuple ts) => .ok (.items ts bs)
  | some (.array t n) => .ok (.items (List.replicate n t) bs)
  | some (.sequence t) => match compactDec 64 bs with
    | none => .error .codec
    | some (n, r) => .ok (.items (List.replicate n t) r)
  | some (.variant vs) => match bs with
    | [] => .error .codec
    | i :: r => match vs.find? (fun v => v.index == i) with
      | none => .error (.variantNotFound i)
      | some v => .ok (.variant v.name v.fields r)
  | some (.bitSequence s o) => match bitsDec s o bs with
    | none => .error .codec
    | some (b, r) => .ok (.leaf (.bits b) r)
  | some (.compact _) => .error .cannotDecodeCompact

/-- The arguments of a `visit_*` call: the type id, whether the children are decoded as compact, the rest. A `Compact<T>` is
visited as a `T` (with the id of `T`) with `is_compact` set. (decode.rs:190-353) -/
structure Visit (Id : Type) where
  ty : Id
  compact : Bool
  step : DStep Id

/-- Dependency model of `decode_with_visitor_maybe_compact`. (behind decode.rs:40-45, 79, 371, 380) -/
def visit (reg : Reg Id) (compact : Bool) (t : Id) (bs : List UInt8) : Except DErr (Visit Id) :=
  if compact then
    match visitCompact reg t bs with
    | .error e => .error e
    | .ok s => .ok ⟨t, true, s⟩
  else
    match reg.resolve t with
    | some (.compact u) => match visitCompact reg u bs with
      | .error e => .error e
      | .ok s => .ok ⟨u, true, s⟩
    | _ => match visitPlain reg t bs with
      | .error e => .error e
      | .ok s => .ok ⟨t, false, s⟩

/-! ### The visitor of decode.rs -/

/-- The leaf `visit_*` functions (decode.rs:190-293, 315-332). Note `visit_i256` (decode.rs:284-293). -/
def leafValue (ctx : Id → Γ) (ty : Id) : Leaf → Value Γ
  | .bool b => .mk (.primitive (.bool b)) (ctx ty)
  | .char c => .mk (.primitive (.char c)) (ctx ty)
  | .str s => .mk (.primitive (.string s)) (ctx ty)
  | .uint n => .mk (.primitive (.u128 n)) (ctx ty)
  | .int n => .mk (.primitive (.i128 n)) (ctx ty)
  | .u256 b => .mk (.primitive (.u256 b)) (ctx ty)
  | .i256 b => .mk (.primitive (.u256 b)) (ctx ty)
  | .bits b => .mk (.bitSequence b) (ctx ty)

/-- The `while let Some(val) = value.decode_item(..) { vals.push(val?) }` loops of decode.rs:79-82 and 380-383. `decode_item` (dependency
model) decodes the next item from the cursor, which it moves only if that succeeded; an error carries the position of the
cursor. The outer `none` is running out of fuel. -/
def decItems (dec : Id → List UInt8 → Option (Out DErr (Value Γ × List UInt8))) :
    List Id → List UInt8 → Option (Out (DErr × List UInt8) (List (Value Γ) × List UInt8))
  | [], bs => some (.ok ([], bs))
  | t :: ts, bs =>
    match dec t bs with
    | none => none
    | some .panic => some .panic
    | some (.err e) => some (.err (e, bs))
    | some (.ok (v, r)) =>
      match decItems dec ts r with
      | some (.ok (vs, r)) => some (.ok (v :: vs, r))
      | other => other

/-- The loop of decode.rs:370-376. -/
def decFields (dec : Id → List UInt8 → Option (Out DErr (Value Γ × List UInt8))) :
    List (Field Id) → List UInt8 → Option (Out (DErr × List UInt8) (List (Str × Value Γ) × List UInt8))
  | [], bs => some (.ok ([], bs))
  | f :: fs, bs =>
    match dec f.id bs with
    | none => none
    | some .panic => some .panic
    | some (.err e) => some (.err (e, bs))
    | some (.ok (v, r)) =>
      match decFields dec fs r with
      | some (.ok (vs, r)) => some (.ok ((f.name.getD [], v) :: vs, r))
      | other => other

/-- decode.rs:364-366: `len > 0 && !value.has_unnamed_fields()`. -/
def isNamed (fs : List (Field Id)) : Bool := decide (fs.length > 0) && !(fs.any (fun f => f.name.isNone))

/-- `visit_composite` (decode.rs:357-386). `al n` says whether `Vec::with_capacity(n)` can be satisfied. -/
def decComposite (al : Nat → Bool) (dec : Id → List UInt8 → Option (Out DErr (Value Γ × List UInt8)))
    (fs : List (Field Id)) (bs : List UInt8) : Option (Out (DErr × List UInt8) (Composite Γ × List UInt8)) :=
  if !al fs.length then some .panic
  else if isNamed fs then
    match decFields dec fs bs with
    | none => none
    | some .panic => some .panic
    | some (.err e) => some (.err e)
    | some (.ok (vs, r)) => some (.ok (.named vs, r))
  else
    match decItems dec (fs.map (fun f => f.id)) bs with
    | none => none
    | some .panic => some .panic
    | some (.err e) => some (.err e)
    | some (.ok (vs, r)) => some (.ok (.unnamed vs, r))

/-- `to_unnamed_composite!` (decode.rs:76-88). -/
def decUnnamed (al : Nat → Bool) (dec : Id → List UInt8 → Option (Out DErr (Value Γ × List UInt8)))
    (ids : List Id) (bs : List UInt8) : Option (Out (DErr × List UInt8) (Composite Γ × List UInt8)) :=
  if !al ids.length then some .panic
  else
    match decItems dec ids bs with
    | none => none
    | some .panic => some .panic
    | some (.err e) => some (.err e)
    | some (.ok (vs, r)) => some (.ok (.unnamed vs, r))

/-- The composite that was decoded as a value. (decode.rs:83-86, 339-342, 349-352) -/
def mkVal (mk : Composite Γ → Value Γ) : Option (Out (DErr × List UInt8) (Composite Γ × List UInt8)) →
    Option (Out DErr (Value Γ × List UInt8))
  | none => none
  | some .panic => some .panic
  | some (.err (e, _)) => some (.err e)
  | some (.ok (c, r)) => some (.ok (mk c, r))

/-- `decode_with_visitor` with `DecodeValueVisitor` (decode.rs:181-354): the recursion depth is bounded by the first argument;
`none` is running out of it. -/
def decN (reg : Reg Id) (al : Nat → Bool) (ctx : Id → Γ) : Nat → Bool → Id → List UInt8 → Option (Out DErr (Value Γ × List UInt8))
  | 0, _, _, _ => none
  | n + 1, c, t, bs =>
    match visit reg c t bs with
    | .error e => some (.err e)
    | .ok ⟨ty, _, .leaf l r⟩ => some (.ok (leafValue ctx ty l, r))
    | .ok ⟨ty, c, .items ids r⟩ =>
      mkVal (fun cs => .mk (.composite cs) (ctx ty)) (decUnnamed al (decN reg al ctx n c) ids r)
    | .ok ⟨ty, c, .composite fs r⟩ =>
      mkVal (fun cs => .mk (.composite cs) (ctx ty)) (decComposite al (decN reg al ctx n c) fs r)
    | .ok ⟨ty, c, .variant name fs r⟩ =>
      mkVal (fun cs => .mk (.variant (.mk name cs)) (ctx ty)) (decComposite al (decN reg al ctx n c) fs r)

/-- The result of a computation with enough fuel (`panic` if there is no such, which is proved never to be the case). (decode.rs:40-45: the code recurses without a bound) -/
noncomputable def atLimit {E A : Type} (f : Nat → Option (Out E A)) : Out E A :=
  open Classical in if h : ∃ n r, f n = some r then h.choose_spec.choose else .panic

/-- `decode_value_as_type` (decode.rs:31-46) is this with `ctx := id` (`TypeIdContext`, decode.rs:157-163); `Value::<()>::decode_as_type`
(decode.rs:124-132) is this with `ctx := fun _ => ()` (`EmptyContext`, decode.rs:150-154). With the value comes the rest of the input.
-/
noncomputable def decodeWith (ctx : Id → Γ) (reg : Reg Id) (al : Nat → Bool) (t : Id) (bs : List UInt8) :
    Out DErr (Value Γ × List UInt8) :=
  atLimit (fun n => decN reg al ctx n false t bs)

/-- `decode_value_as_type` (decode.rs:31-46). -/
noncomputable def decodeValueAsType (reg : Reg Id) (al : Nat → Bool) (t : Id) (bs : List UInt8) : Out DErr (Value Id × List UInt8) :=
  decodeWith id reg al t bs

/-- `<Value<()> as DecodeAsType>::decode_as_type` (decode.rs:124-132). -/
noncomputable def decodeAsType (reg : Reg Id) (al : Nat → Bool) (t : Id) (bs : List UInt8) : Out DErr (Value Unit × List UInt8) :=
  decodeWith (fun _ => ()) reg al t bs

/-- The one-off visitor call of decode.rs:60-68 and 97-105. -/
noncomputable def decodeFields (ctx : Id → Γ) (reg : Reg Id) (al : Nat → Bool) (fs : List (Field Id)) (bs : List UInt8) :
    Out (DErr × List UInt8) (Composite Γ × List UInt8) :=
  atLimit (fun n => decComposite al (decN reg al ctx n false) fs bs)

/-- `decode_composite_as_fields` (decode.rs:50-73): the result, and the input cursor afterwards. An error is returned by the `?` of
decode.rs:68 before the cursor is touched. -/
noncomputable def decodeCompositeAsFields (reg : Reg Id) (al : Nat → Bool) (fs : List (Field Id)) (bs : List UInt8) :
    Out DErr (Composite Id) × List UInt8 :=
  match decodeFields id reg al fs bs with
  | .panic => (.panic, bs)
  | .err (e, _) => (.err e, bs)
  | .ok (c, r) => (.ok c, r)

/-- `<Composite<()> as DecodeAsFields>::decode_as_fields` (decode.rs:90-111): here the cursor is moved also if there was an error, to
where the iteration over the fields stopped (after an error `skip_decoding` has nothing left to skip: dependency model). -/
noncomputable def compositeDecodeAsFields (reg : Reg Id) (al : Nat → Bool) (fs : List (Field Id)) (bs : List UInt8) :
    Out DErr (Composite Unit) × List UInt8 :=
  match decodeFields (fun _ => ()) reg al fs bs with
  | .panic => (.panic, bs)
  | .err (e, r) => (.err e, r)
  | .ok (c, r) => (.ok c, r)

/-- `<Value<()> as DecodeAsFields>::decode_as_fields` (decode.rs:113-122). -/
noncomputable def valueDecodeAsFields (reg : Reg Id) (al : Nat → Bool) (fs : List (Field Id)) (bs : List UInt8) :
    Out DErr (Value Unit) × List UInt8 :=
  match compositeDecodeAsFields reg al fs bs with
  | (.panic, r) => (.panic, r)
  | (.err e, r) => (.err e, r)
  | (.ok c, r) => (.ok (.mk (.composite c) ()), r)

end SV
