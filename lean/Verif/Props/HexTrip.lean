import Verif.Props.Trip
import Verif.Props.Hex
/-
C57 with lists of bytes in hexadecimal.
-/
namespace SV

variable {T Id Γ : Type} {u : Uni}

/-- C57 with `format_hex` and `parse_hex`, in any style: a value can be kept as text with lists of bytes in hexadecimal, and is read as the value itself, and encoded to the same bytes. -/
theorem C57_hex_text_then_encode (reg : Reg Id) (cc : Bool) (b : Builder T Str) (hw : b.wr = stringWriter) (hf : b.customFormatters = [formatHex stringWriter])
    (hc : b.printContext = none) (hi : Ws u b.indentBy) (hl : Ws u b.leadingIndent) (v : Value T) (hp : Printable u v) :
    ∃ s, b.toString u v = some s ∧ parse u [parseHex] s = some (.ok v.removeContext, []) ∧
      (∀ t, v.removeContext.encode reg cc t = v.encode reg cc t) ∧ ∀ fs, v.removeContext.encodeAsFields reg cc fs = v.encodeAsFields reg cc fs := by
  obtain ⟨s, h1, h2⟩ := C22_nested_round_trip b hw hf hc hi hl v hp
  refine ⟨s, h1, by simpa using h2 [] (fun _ => trivial) trivial, ?_, ?_⟩
  · intro t; exact C30_encode reg cc _ () v t
  · intro fs; exact C30_encode_fields reg cc _ () v fs

/-- C57: and bytes can: decoding, printing with `format_hex`, parsing with `parse_hex` and encoding gives the bytes back. -/
theorem C57_hex_bytes_text_bytes (ctx : Id → Γ) (reg : Reg Id) (cc : Bool) (al : Nat → Bool) (t : Id) (bs r : List UInt8) (v : Value Γ)
    (h : decodeWith ctx reg al t bs = .ok (v, r)) (he : Encodable reg cc t) (hs : Short v) (hb : NoBits reg t) (b : Builder Γ Str) (hw : b.wr = stringWriter)
    (hf : b.customFormatters = [formatHex stringWriter]) (hc : b.printContext = none) (hi : Ws u b.indentBy) (hl : Ws u b.leadingIndent) (hp : Printable u v) :
    ∃ s p, b.toString u v = some s ∧ parse u [parseHex] s = some (.ok v.removeContext, []) ∧ Okay (v.removeContext.encode reg cc t) p ∧ bs = p ++ r := by
  obtain ⟨s, h1, h2, h3, -⟩ := C57_hex_text_then_encode (u := u) reg cc b hw hf hc hi hl v hp
  obtain ⟨p, h4, -, -, h5⟩ := C25_reencode ctx reg cc al t bs r v h he hs
  exact ⟨s, p, h1, h2, by rw [h3]; exact h4, h5 hb⟩

theorem exDecoded_printable : Printable Uni.ascii exDecoded := by
  refine .unnamed ?_
  intro v hv
  simp at hv
  rcases hv with rfl | rfl
  · refine .named ?_
    intro p hp
    simp at hp
    rcases hp with rfl | rfl
    · exact .prim trivial
    · refine .unnamed ?_
      intro v hv
      simp at hv
      subst hv
      exact .prim trivial
  · refine .vunnamed (fun _ => by decide) ?_
    intro v hv
    simp at hv
    rcases hv with rfl | rfl <;> exact .prim trivial

/-- One of the lists is written in hexadecimal, and all is read back and encoded to the bytes `[7, 4, 9, 5, 1, 2]`. -/
example : ((Builder.new stringWriter).compact.addCustomFormatter (formatHex stringWriter)).toString Uni.ascii exDecoded = some "({a:7,b:0x09},B(1,2))".toList ∧
    parse Uni.ascii [parseHex] "({a:7,b:0x09},B(1,2))".toList = some (.ok exDecoded.removeContext, []) ∧ Okay (exDecoded.encode exReg true 13) [7, 4, 9, 5, 1, 2] := by
  have e : ((Builder.new stringWriter).compact.addCustomFormatter (formatHex stringWriter)).toString Uni.ascii exDecoded = some "({a:7,b:0x09},B(1,2))".toList := by
    decide +kernel
  refine ⟨e, ?_, fun out => rfl⟩
  obtain ⟨s, h1, h2, -⟩ := C57_hex_text_then_encode (u := .ascii) exReg true ((Builder.new stringWriter).compact.addCustomFormatter (formatHex stringWriter)) rfl rfl rfl
    (by intro c hc; simp [Builder.addCustomFormatter, Builder.compact, Builder.new] at hc; subst hc; exact ws_space) ws_nil exDecoded exDecoded_printable
  rw [e] at h1
  cases h1
  exact h2

end SV
