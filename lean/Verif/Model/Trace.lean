import Verif.Model.Decode
/-
Model of /repo/src/scale_impls/tracing_decoder (path.rs, error.rs, visitor.rs).
-/
namespace SV

variable {Id V W : Type}

/-- `PathSegment` (path.rs:59-64). -/
inductive PathSeg where
  | field (s : Str)
  | index (n : Nat)
  | variant (s : Str)
  deriving DecidableEq

/-- `Path` (path.rs:21-22): `at_idx`, `at_field`, `at_variant` (path.rs:28-42) push a segment at the end. -/
abbrev Path := List PathSeg

/-- `TraceDecodingError` (error.rs:23-27, 81-92). -/
inductive TErr (V : Type) where
  | fromDecode (e : DErr)
  | fromVisitor (at_ : Path) (soFar : V) (e : DErr)

/-- `TraceDecodingError::map_decoded_so_far` (error.rs:30-47). -/
def TErr.mapSoFar (f : V → W) : TErr V → TErr W
  | .fromDecode e => .fromDecode e
  | .fromVisitor p v e => .fromVisitor p (f v) e

/-- `TraceDecodingError::with_outer_context` (error.rs:48-72). -/
def TErr.withOuter (path : Path) (dflt : W) (into : V → W) : TErr V → TErr W
  | .fromDecode e => .fromVisitor path dflt e
  | .fromVisitor p v e => .fromVisitor p (into v) e

/-- `MAX_CAPACITY` (visitor.rs:27). -/
def maxCapacity : Nat := 100000000

/-- The leaf `visit_*` functions (visitor.rs:123-253). -/
def trLeaf (ty : Id) : Leaf → Value Id
  | .bool b => .mk (.primitive (.bool b)) ty
  | .char c => .mk (.primitive (.char c)) ty
  | .str s => .mk (.primitive (.string s)) ty
  | .uint n => .mk (.primitive (.u128 n)) ty
  | .int n => .mk (.primitive (.i128 n)) ty
  | .u256 b => .mk (.primitive (.u256 b)) ty
  | .i256 b => .mk (.primitive (.i256 b)) ty
  | .bits b => .mk (.bitSequence b) ty

/-- The loop of `to_unnamed_composite!` (visitor.rs:72-95): `idx` and `vals` are its variables. -/
def trItems (dec : Path → Id → List UInt8 → Option (Out (TErr (Value Id)) (Value Id × List UInt8))) (path : Path) :
    List Id → Nat → List (Value Id) → List UInt8 → Option (Out (TErr (Composite Id)) (Composite Id × List UInt8))
  | [], _, vals, bs => some (.ok (.unnamed vals, bs))
  | t :: ts, idx, vals, bs =>
    match dec (path ++ [.index idx]) t bs with
    | none => none
    | some .panic => some .panic
    | some (.err e) =>
      some (.err (e.withOuter (path ++ [.index idx]) (.unnamed vals) (fun inner => .unnamed (vals ++ [inner]))))
    | some (.ok (v, r)) => trItems dec path ts (idx + 1) (vals ++ [v]) r

/-- `to_unnamed_composite!` (visitor.rs:61-100). -/
def trUnnamed (al : Nat → Bool) (dec : Path → Id → List UInt8 → Option (Out (TErr (Value Id)) (Value Id × List UInt8))) (path : Path)
    (ts : List Id) (bs : List UInt8) : Option (Out (TErr (Composite Id)) (Composite Id × List UInt8)) :=
  if ts.length > maxCapacity then some (.err (.fromDecode .tooManyEntries))
  else if !al ts.length then some .panic
  else trItems dec path ts 0 [] bs

/-- The loop of `visit_composite` (visitor.rs:349-372). -/
def trNamedFields (dec : Path → Id → List UInt8 → Option (Out (TErr (Value Id)) (Value Id × List UInt8))) (path : Path) :
    List (Field Id) → List (Str × Value Id) → List UInt8 → Option (Out (TErr (Composite Id)) (Composite Id × List UInt8))
  | [], vals, bs => some (.ok (.named vals, bs))
  | f :: fs, vals, bs =>
    let name := f.name.getD "<unnamed>".toList
    match dec (path ++ [.field name]) f.id bs with
    | none => none
    | some .panic => some .panic
    | some (.err e) =>
      some (.err (e.withOuter (path ++ [.field name]) (.named vals) (fun inner => .named (vals ++ [(name, inner)]))))
    | some (.ok (v, r)) => trNamedFields dec path fs (vals ++ [(name, v)]) r

/-- `visit_composite` (visitor.rs:331-375). -/
def trGroupOf (al : Nat → Bool) (dec : Path → Id → List UInt8 → Option (Out (TErr (Value Id)) (Value Id × List UInt8))) (path : Path)
    (fs : List (Field Id)) (bs : List UInt8) : Option (Out (TErr (Composite Id)) (Composite Id × List UInt8)) :=
  if !isNamed fs then trUnnamed al dec path (fs.map (fun f => f.id)) bs
  else if !al fs.length then some .panic
  else trNamedFields dec path fs [] bs

/-- The end of `to_unnamed_composite_value!` and of the visitor's `visit_composite` (visitor.rs:102-113, 315-328). -/
def trMkVal (ty : Id) : Option (Out (TErr (Composite Id)) (Composite Id × List UInt8)) →
    Option (Out (TErr (Value Id)) (Value Id × List UInt8))
  | none => none
  | some .panic => some .panic
  | some (.err e) => some (.err (e.mapSoFar (fun c => .mk (.composite c) ty)))
  | some (.ok (c, r)) => some (.ok (.mk (.composite c) ty, r))

/-- The end of the visitor's `visit_variant` (visitor.rs:279-313). -/
def trMkVariant (path : Path) (ty : Id) (name : Str) : Option (Out (TErr (Composite Id)) (Composite Id × List UInt8)) →
    Option (Out (TErr (Value Id)) (Value Id × List UInt8))
  | none => none
  | some .panic => some .panic
  | some (.err e) => some (.err (e.withOuter (path ++ [.variant name]) (.mk (.variant (.mk name (.unnamed []))) ty)
      (fun inner => .mk (.variant (.mk name inner)) ty)))
  | some (.ok (c, r)) => some (.ok (.mk (.variant (.mk name c)) ty, r))

/-- `decode_with_visitor` with `TraceDecodingVisitor` (visitor.rs:115-329), with bounded recursion depth. Errors of `scale_decode` itself
are `FromDecodeError` (error.rs:114-124). -/
def trN (reg : Reg Id) (al : Nat → Bool) : Nat → Bool → Path → Id → List UInt8 → Option (Out (TErr (Value Id)) (Value Id × List UInt8))
  | 0, _, _, _, _ => none
  | n + 1, c, path, t, bs =>
    match visit reg c t bs with
    | .error e => some (.err (.fromDecode e))
    | .ok ⟨ty, _, .leaf l r⟩ => some (.ok (trLeaf ty l, r))
    | .ok ⟨ty, c, .items ids r⟩ => trMkVal ty (trUnnamed al (trN reg al n c) path ids r)
    | .ok ⟨ty, c, .composite fs r⟩ => trMkVal ty (trGroupOf al (trN reg al n c) path fs r)
    | .ok ⟨ty, c, .variant name fs r⟩ => trMkVariant path ty name (trGroupOf al (trN reg al n c) path fs r)

/-- `scale::tracing::decode_as_type` (lib.rs:257-271): decoding with `TraceDecodingVisitor::new()`. -/
noncomputable def traceDecode (reg : Reg Id) (al : Nat → Bool) (t : Id) (bs : List UInt8) : Out (TErr (Value Id)) (Value Id × List UInt8) :=
  atLimit (fun n => trN reg al n false [] t bs)

end SV
