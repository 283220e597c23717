import Verif.Model.Trace
/-
How often the decoders are entered: the recursion of `Model/Decode` and `Model/Trace` read once more for the number of times that
`decode_with_visitor` is called (by decode.rs:40-45 for the root, and through `decode_item` at decode.rs:79, 371, 380 and visitor.rs:72-95, 349-372 for what is
inside). Whether a call succeeds, and where it leaves the input, is taken from the models themselves.
-/
namespace SV

variable {Id Γ E A : Type}

/-- The calls of one `decode_item` loop (decode.rs:79-82, 370-376, 380-383, visitor.rs:72-95, 349-372): one after the other, as long as they succeed. For each part there is what
decodes it, and the number of calls that this makes. -/
def loopCalls : List ((List UInt8 → Option (Out E (A × List UInt8))) × (List UInt8 → Nat)) → List UInt8 → Nat
  | [], _ => 0
  | (dec, calls) :: l, bs => calls bs + match dec bs with
    | some (.ok (_, r)) => loopCalls l r
    | _ => 0

/-- The calls made for a group of parts; none if no memory can be had for the values (decode.rs:78, 369, 379). -/
def groupCalls (reg : Reg Id) (al : Nat → Bool) (ctx : Id → Γ) (n : Nat) (c : Bool) (calls : Id → List UInt8 → Nat) (ids : List Id) (bs : List UInt8) : Nat :=
  if al ids.length then loopCalls (ids.map (fun u => (decN reg al ctx n c u, calls u))) bs else 0

/-- `decode_with_visitor` with `DecodeValueVisitor` (decode.rs:181-354), as `decN`: one call, and those that it makes. -/
def decCalls (reg : Reg Id) (al : Nat → Bool) (ctx : Id → Γ) : Nat → Bool → Id → List UInt8 → Nat
  | 0, _, _, _ => 0
  | n + 1, c, t, bs =>
    match visit reg c t bs with
    | .error _ => 1
    | .ok ⟨_, _, .leaf _ _⟩ => 1
    | .ok ⟨_, c, .items ids r⟩ => 1 + groupCalls reg al ctx n c (decCalls reg al ctx n c) ids r
    | .ok ⟨_, c, .composite fs r⟩ => 1 + groupCalls reg al ctx n c (decCalls reg al ctx n c) (fs.map (fun f => f.id)) r
    | .ok ⟨_, c, .variant _ fs r⟩ => 1 + groupCalls reg al ctx n c (decCalls reg al ctx n c) (fs.map (fun f => f.id)) r

/-- The calls of `to_unnamed_composite!` (visitor.rs:61-100): none if there are too many parts, or no memory. -/
def trUnnamedCalls (reg : Reg Id) (al : Nat → Bool) (n : Nat) (c : Bool) (path : Path) (calls : Path → Id → List UInt8 → Nat) (ids : List Id) (bs : List UInt8) : Nat :=
  if ids.length > maxCapacity then 0
  else if al ids.length then loopCalls (ids.mapIdx (fun i u => (trN reg al n c (path ++ [.index i]) u, calls (path ++ [.index i]) u))) bs else 0

/-- The calls of `visit_composite` (visitor.rs:331-375). -/
def trGroupCalls (reg : Reg Id) (al : Nat → Bool) (n : Nat) (c : Bool) (path : Path) (calls : Path → Id → List UInt8 → Nat) (fs : List (Field Id)) (bs : List UInt8) : Nat :=
  if !isNamed fs then trUnnamedCalls reg al n c path calls (fs.map (fun f => f.id)) bs
  else if al fs.length then
    loopCalls (fs.map (fun f => (trN reg al n c (path ++ [.field (f.name.getD "<unnamed>".toList)]) f.id, calls (path ++ [.field (f.name.getD "<unnamed>".toList)]) f.id))) bs
  else 0

/-- `decode_with_visitor` with `TraceDecodingVisitor` (visitor.rs:115-329), as `trN`: one call, and those that it makes. -/
def trCalls (reg : Reg Id) (al : Nat → Bool) : Nat → Bool → Path → Id → List UInt8 → Nat
  | 0, _, _, _, _ => 0
  | n + 1, c, path, t, bs =>
    match visit reg c t bs with
    | .error _ => 1
    | .ok ⟨_, _, .leaf _ _⟩ => 1
    | .ok ⟨_, c, .items ids r⟩ => 1 + trUnnamedCalls reg al n c path (trCalls reg al n c) ids r
    | .ok ⟨_, c, .composite fs r⟩ => 1 + trGroupCalls reg al n c path (trCalls reg al n c) fs r
    | .ok ⟨_, c, .variant _ fs r⟩ => 1 + trGroupCalls reg al n c path (trCalls reg al n c) fs r

/-- A depth of recursion with which a call ends (there always is one; the number of calls does not depend on which is taken, see C88). (decode.rs:40-45: the code recurses without a bound) -/
noncomputable def enough (f : Nat → Option A) : Nat :=
  open Classical in if h : ∃ n, (f n).isSome then h.choose else 0

/-- The calls made by `decode_value_as_type` and the other entry points for values (decode.rs:31-46, 124-132). -/
noncomputable def decodeCalls (ctx : Id → Γ) (reg : Reg Id) (al : Nat → Bool) (t : Id) (bs : List UInt8) : Nat :=
  decCalls reg al ctx (enough (fun n => decN reg al ctx n false t bs)) false t bs

/-- The calls made by `scale::tracing::decode_as_type` (lib.rs:257-271). -/
noncomputable def traceCalls (reg : Reg Id) (al : Nat → Bool) (t : Id) (bs : List UInt8) : Nat :=
  trCalls reg al (enough (fun n => trN reg al n false [] t bs)) false [] t bs

/-- The calls made by `decode_composite_as_fields` and `decode_as_fields` (decode.rs:50-73, 90-122). -/
noncomputable def decodeFieldsCalls (ctx : Id → Γ) (reg : Reg Id) (al : Nat → Bool) (fs : List (Field Id)) (bs : List UInt8) : Nat :=
  let n := enough (fun n => decComposite al (decN reg al ctx n false) fs bs)
  groupCalls reg al ctx n false (decCalls reg al ctx n false) (fs.map (fun f => f.id)) bs

end SV
