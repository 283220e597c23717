import Verif.Proofs.Trip
import Verif.Proofs.TripExact
import Verif.Props.Format
import Verif.Props.Encode
import Verif.Props.EncodeErr
import Verif.Props.Serde
/-
Properties C57, C58: values that leave the program, as text or in a self-describing format, and are encoded after they have come back.
-/
namespace SV

variable {T U Id Γ : Type} {u : Uni}

/-! ### C57 -/

/-- C57: whatever a value is encoded to (or why it is not) depends on its data alone: not on its contexts, and not on whether numbers in it are signed or unsigned. -/
theorem C57_encoding_sees_data (reg : Reg Id) (cc : Bool) (v : Value T) (w : Value U) (h : SameData v w) (t : Id) (fs : List (Field Id)) :
    v.encode reg cc t = w.encode reg cc t ∧ v.encodeAsFields reg cc fs = w.encodeAsFields reg cc fs :=
  ⟨congrFun (h.encode reg cc).1 t, h.encodeAsFields reg cc fs⟩

/-- C57: the text of a value, in any style, is read as a value with the same data; whatever follows it is left. -/
theorem C57_text (b : Builder T Str) (hw : b.wr = stringWriter) (hf : b.customFormatters = [])
    (hc : b.printContext = none) (hi : Ws u b.indentBy) (hl : Ws u b.leadingIndent) (v : Value T) (hv : Textual u v) :
    ∃ s w, b.toString u v = some s ∧ SameData v w ∧ ∀ rest, PlainFollow s rest → fromStr u (s ++ rest) = some (.ok w, rest) := by
  obtain ⟨s, h1, h2⟩ := C06_all_styles_round_trip b hw hf hc hi hl _ ((printable_unsign u v).2 hv)
  rw [toString_unsign u b hf v] at h1
  exact ⟨s, _, h1, sameData_unsign v, h2⟩

/-- C57 for `Display`. -/
theorem C57_display (alt : Bool) (v : Value T) (hv : Textual u v) :
    ∃ s w, v.toString u alt = some s ∧ SameData v w ∧ ∀ rest, PlainFollow s rest → fromStr u (s ++ rest) = some (.ok w, rest) := by
  obtain ⟨s, h1, h2⟩ := C05_display_round_trip alt _ ((printable_unsign u v).2 hv)
  rw [toString_eq, toString_unsign u _ (by cases alt <;> rfl) v, ← toString_eq] at h1
  exact ⟨s, _, h1, sameData_unsign v, h2⟩

/-- C57: these are all the values of which this holds: if the text of a value is read as the value itself, save for signed numbers that are not negative, which are read as unsigned, then
there are no 256 bit numbers and no variants with the names that are mistaken for booleans in it. -/
theorem C57_exactly_textual (alt : Bool) (v : Value T) :
    (∃ s, v.toString u alt = some s ∧ fromStr u s = some (.ok (v.mapPrim unsign).removeContext, [])) ↔ Textual u v := by
  rw [← printable_unsign, ← C16_display_exactly_printable alt, toString_eq, toString_eq, toString_unsign u _ (by cases alt <;> rfl) v]

/-- C57: so a value can be kept as text: what is read from the text is encoded to the same bytes as the value (or fails with the same error) at every type. -/
theorem C57_text_then_encode (reg : Reg Id) (cc : Bool) (alt : Bool) (v : Value T) (hv : Textual u v) :
    ∃ s w, v.toString u alt = some s ∧ fromStr u s = some (.ok w, []) ∧
      (∀ t, w.encode reg cc t = v.encode reg cc t) ∧ ∀ fs, w.encodeAsFields reg cc fs = v.encodeAsFields reg cc fs := by
  obtain ⟨s, w, h1, h2, h3⟩ := C57_display alt v hv
  refine ⟨s, w, h1, by simpa using h3 [] (fun _ => trivial), fun t => ?_, fun fs => ?_⟩
  · exact (C57_encoding_sees_data reg cc v w h2 t []).1.symm
  · exact (h2.encodeAsFields reg cc fs).symm

/-- C57: and bytes can: decoding, printing, parsing and encoding gives the bytes back. -/
theorem C57_bytes_text_bytes (ctx : Id → Γ) (reg : Reg Id) (cc : Bool) (al : Nat → Bool) (t : Id) (bs r : List UInt8) (v : Value Γ)
    (h : decodeWith ctx reg al t bs = .ok (v, r)) (he : Encodable reg cc t) (hs : Short v) (hb : NoBits reg t) (alt : Bool) (hv : Textual u v) :
    ∃ s w p, v.toString u alt = some s ∧ fromStr u s = some (.ok w, []) ∧ Okay (w.encode reg cc t) p ∧ bs = p ++ r := by
  obtain ⟨s, w, h1, h2, h3, -⟩ := C57_text_then_encode (u := u) reg cc alt v hv
  obtain ⟨p, h4, -, -, h5⟩ := C25_reencode ctx reg cc al t bs r v h he hs
  exact ⟨s, w, p, h1, h2, by rw [h3]; exact h4, h5 hb⟩

/-- A value with a signed number that is not negative, which does not come back as it was, but with the same data. -/
def exTextual : Value Nat :=
  .mk (.composite (.named [("a".toList, .mk (.primitive (.i128 ⟨7, by decide, by decide⟩)) 1), ("b".toList, .mk (.variant (.mk "B".toList (.unnamed [.mk (.primitive (.i128 ⟨-7, by decide, by decide⟩)) 1]))) 2)])) 3

theorem exTextual_textual : Textual Uni.ascii exTextual := by
  refine .named ?_
  intro p hp
  simp at hp
  rcases hp with rfl | rfl
  · exact .prim (by simp)
  · refine .vunnamed ?_ ?_
    · intro h; decide
    · intro v hv
      simp at hv
      subst hv
      exact .prim (by simp)

example : exTextual.toString .ascii false = some "{ a: 7, b: B (-7) }".toList := by decide +kernel

example : ∃ s w, exTextual.toString .ascii false = some s ∧ fromStr .ascii s = some (.ok w, []) ∧ w ≠ exTextual.removeContext ∧
    ∀ t, w.encode exReg true t = exTextual.encode exReg true t := by
  obtain ⟨s, w, h1, h2, h3, -⟩ := C57_text_then_encode (u := .ascii) exReg true false exTextual exTextual_textual
  refine ⟨s, w, h1, h2, ?_, h3⟩
  rintro rfl
  have := (C16_display_exactly_printable (u := .ascii) false exTextual).1 ⟨s, h1, h2⟩
  cases this with
  | named h =>
    have := h ("a".toList, .mk (.primitive (.i128 ⟨7, by decide, by decide⟩)) 1) (by simp)
    cases this with
    | prim h => simp [PrimOk] at h

/-- `({ a: 7, b: (9) }, B (1, 2))` -/
def exDecoded : Value Unit :=
  .unnamedComposite [.namedComposite [(['a'], .u128 ⟨7, by decide⟩), (['b'], .unnamedComposite [.u128 ⟨9, by decide⟩])],
    .variant ['B'] (.unnamed [.u128 ⟨1, by decide⟩, .u128 ⟨2, by decide⟩])]

example : decodeAsType exReg (fun _ => true) 13 [7, 4, 9, 5, 1, 2, 3] = .ok (exDecoded, [3]) ∧
    exDecoded.toString .ascii true = some "(\n  {\n    a: 7,\n    b: (\n      9\n    )\n  },\n  B (\n    1,\n    2\n  )\n)".toList ∧
    Okay (exDecoded.encode exReg true 13) [7, 4, 9, 5, 1, 2] :=
  ⟨decodeWith_eq.2 ⟨5, rfl⟩, by decide +kernel, fun out => rfl⟩

/-! ### C58 -/

/-- C58: a composite of numbers, booleans, strings and bit sequences keeps its data in every self-describing format, and so the value that is read is encoded to the same bytes. -/
theorem C58_format (v : Value T) (hv : FormatSafe v) (d : Der) (h : Plays d v.serialize) :
    ∃ w, deValue d = some w ∧ SameData v w ∧ ∀ (Id : Type) (reg : Reg Id) cc t, w.encode reg cc t = v.encode reg cc t := by
  obtain ⟨w, h1, h2⟩ := C46_formats v hv.noBitName d h
  have hs := h2.sameData hv
  exact ⟨w, h1, hs, fun Id reg cc t => (congrFun (hs.encode reg cc).1 t).symm⟩

/-- C58: these are all the values whose data every self-describing format keeps. -/
theorem C58_exactly (v : Value T) : (∀ d, Plays d v.serialize → ∃ w, deValue d = some w ∧ SameData v w) ↔ FormatSafe v := by
  refine ⟨fun h => ?_, fun hv d hd => ?_⟩
  · obtain ⟨d, hd, hs⟩ := spoils_exists v
    obtain ⟨w, hw, hsame⟩ := h d hd
    exact hs w hw hsame
  · obtain ⟨w, h1, h2, -⟩ := C58_format v hv d hd
    exact ⟨w, h1, h2⟩

/-- C58: `to_value` and `from_value` keep characters too; these are all the values whose data they keep. -/
theorem C58_values_exactly (v : Value T) : (∃ w x, v.serialize.toValue = .ok w ∧ deValue w.der = some x ∧ SameData v x) ↔ ValueSafe v := by
  obtain ⟨w, h1, h2, -⟩ := C41_to_value v
  constructor
  · rintro ⟨w', x, h1', h3, h4⟩
    rw [h1] at h1'; cases h1'
    exact (flat_back_same h2 (back_iff.1 h3)).1 h4
  · intro hv
    obtain ⟨w', u, h3, h4, -⟩ := C46_values v hv.noBitName
    rw [h1] at h3; cases h3
    exact ⟨w, u, h1, h4, (flat_back_same h2 (back_iff.1 h4)).2 hv⟩

/-- C58: so what `from_value` reads of what `to_value` makes is encoded to the same bytes. -/
theorem C58_values (v : Value T) (hv : ValueSafe v) :
    ∃ w x, v.serialize.toValue = .ok w ∧ deValue w.der = some x ∧ SameData v x ∧ ∀ (Id : Type) (reg : Reg Id) cc t, x.encode reg cc t = v.encode reg cc t := by
  obtain ⟨w, x, h1, h2, hs⟩ := (C58_values_exactly v).2 hv
  exact ⟨w, x, h1, h2, hs, fun Id reg cc t => (congrFun (hs.encode reg cc).1 t).symm⟩

/-- C58: variants do not: what is read is not encoded at any enum type. -/
theorem C58_variants (n : Str) (c : Composite T) (x : T) (hv : NoBitName (.mk (.variant (.mk n c)) x)) (d : Der) (h : Plays d (Value.mk (.variant (.mk n c)) x).serialize) :
    ∃ w, deValue d = some w ∧ ∀ (Id : Type) (reg : Reg Id) cc t ds, reg.resolve t = some (.variant ds) → FailsWith (w.encode reg cc t) ⟨[], .wrongShape t⟩ := by
  obtain ⟨w, h1, h2⟩ := C46_formats _ hv d h
  refine ⟨w, h1, fun Id reg cc t ds hr => ?_⟩
  cases h2 with
  | number hv => cases hv
  | variant h =>
    exact C51_not_composite reg cc _ () (by simp [Composite.vals]) t (.inr ⟨_, hr, trivial⟩)

/-- C58: but if it is read as a `Variant` (and not as a `Value`) then it is the variant that it was, with the same data. -/
theorem C58_read_as_variant (n : Str) (f : Composite T) (x : T) (hf : FormatSafe (.mk (.composite f) x)) (d : Der) (h : Plays d (Variant.mk n f).serialize) :
    ∃ g, deVariant d = some (.mk n g) ∧ SameData (.mk (.variant (.mk n f)) x) (.mk (.variant (.mk n g)) ()) ∧
      ∀ (Id : Type) (reg : Reg Id) cc t, (Value.mk (.variant (.mk n g)) ()).encode reg cc t = (Value.mk (.variant (.mk n f)) x).encode reg cc t := by
  have hb : ∀ v ∈ f.vals, NoBitName v := by
    intro v hv
    cases f with
    | named fs =>
      simp only [Composite.vals, List.mem_map] at hv
      obtain ⟨p, hp, rfl⟩ := hv
      cases hf with
      | number h => cases h
      | named _ h => exact (h p hp).noBitName
    | unnamed vs =>
      cases hf with
      | number h => cases h
      | unnamed h => exact (h v hv).noBitName
  obtain ⟨g, h1, h2⟩ := C47_formats n f x hb d h
  have hs : SameData (.mk (.variant (.mk n f)) x) (.mk (.variant (.mk n g)) ()) := .variant (h2.sameData hf)
  exact ⟨g, h1, hs, fun Id reg cc t => (congrFun (hs.encode reg cc).1 t).symm⟩

/-- The number 7, signed, with a boolean. -/
def exSafe : Value Nat := .mk (.composite (.unnamed [.mk (.primitive (.i128 ⟨7, by decide, by decide⟩)) 1, .mk (.primitive (.bool true)) 2])) 3

theorem exSafe_safe : FormatSafe exSafe := by
  refine .unnamed ?_
  simp only [List.forall_mem_cons]
  exact ⟨.number rfl, .bool, by simp⟩

/-- `[7, true]` in a format, where numbers that are not negative are unsigned. -/
def exSafeDer : Der := exDer (.seq true [exDer (.num ⟨.u64, 7, by decide, by decide⟩), exDer (.bool true)])

theorem exSafe_plays : Plays exSafeDer exSafe.serialize := by
  have hp : exSafe.serialize = .seq [.num ⟨.i8, 7, by decide, by decide⟩, .bool true] := rfl
  rw [hp]
  refine .seq (fun a _ => rfl) rfl ?_
  intro i e x h1 h2
  match i with
  | 0 => cases h1; cases h2; exact .num (m := ⟨.u64, 7, by decide, by decide⟩) rfl fun a _ => rfl
  | 1 => cases h1; cases h2; exact .bool fun a _ => rfl
  | i + 2 => cases h1

example : deValue exSafeDer = some (.unnamedComposite [exU 7, .bool true]) := rfl
example : ∃ w, deValue exSafeDer = some w ∧ SameData exSafe w := by
  obtain ⟨w, h1, h2, -⟩ := C58_format exSafe exSafe_safe exSafeDer exSafe_plays
  exact ⟨w, h1, h2⟩

/-- `{"values":[7],"name":"B"}`, read as a value or as a variant. -/
example : ∃ w, deValue (exDer (.map true [(exDer (.str "values".toList), exDer (.seq true [exDer (.num ⟨.u64, 7, by decide, by decide⟩)])),
    (exDer (.str "name".toList), exDer (.str "B".toList))])) = some w ∧ FailsWith (w.encode exReg true 4) ⟨[], .wrongShape 4⟩ :=
  ⟨_, rfl, fun _ => ⟨_, rfl⟩⟩

/-- A character is kept by `to_value` and `from_value`, but not by every format; a composite with the name of bit sequences first, by none. -/
example : ValueSafe (.mk (.composite (.unnamed [.mk (.primitive (.char 'x')) ()])) () : Value Unit) ∧ ¬ FormatSafe (.mk (.composite (.unnamed [.mk (.primitive (.char 'x')) ()])) () : Value Unit) := by
  refine ⟨.unnamed (by simp only [List.forall_mem_cons]; exact ⟨.char, by simp⟩), fun h => ?_⟩
  cases h with
  | number h => cases h
  | unnamed h => cases h _ (.head _) with | number h => cases h
example : ¬ ∃ w x, (Value.mk (.composite (.named [("__bitvec__values__".toList, .mk (.composite (.unnamed [])) ())])) () : Value Unit).serialize.toValue = .ok w ∧
    deValue w.der = some x ∧ SameData (Value.mk (.composite (.named [("__bitvec__values__".toList, .mk (.composite (.unnamed [])) ())])) () : Value Unit) x := by
  rw [C58_values_exactly]
  intro h
  cases h with
  | number h => cases h
  | named first => exact first _ rfl rfl

end SV
