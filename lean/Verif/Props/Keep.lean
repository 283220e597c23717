import Verif.Proofs.Keep
import Verif.Props.Trip
import Verif.Props.ReadAs
import Verif.Props.Static
/-
C87: typed data can be kept as text.
-/
namespace SV

variable {T U Id : Type} {u : Uni}

/-- C87: what a value is read as by `from_value` (or that it fails) depends on its data alone, for types without byte buffers (`serde_bytes`) and `Value`s in them: not on contexts, nor on whether numbers are
held signed or unsigned. -/
theorem C87_reading_sees_data (t : Ty) (hb : ¬ TyPart .bytes t) (hv : ¬ TyPart .value t) (v : Value T) (w : Value U) (h : SameData v w) : t.de v.der = t.de w.der := by
  apply Option.ext
  intro d
  rw [C81_reads, C81_reads]
  exact ⟨fun hr => readAs_same hr h hv (fun hh => absurd hh hb), fun hr => readAs_same hr h.symm hv (fun hh => absurd hh hb)⟩

/-- C87: if numbers are signed in the second value only if they are negative, then also with byte buffers: whatever is read from the first is read from the second. -/
theorem C87_unsigned (t : Ty) (hv : ¬ TyPart .value t) (v : Value T) (w : Value U) (h : SameData v w) (hw : ¬ HasSignedNat w) (d : Dat) (hd : t.de v.der = some d) : t.de w.der = some d := by
  rw [C81_reads] at hd ⊢
  exact readAs_same hd h hv (fun _ => hw)

/-- C87: so what `from_value` reads from a value it reads from the text of the value too, in any style, whatever follows the text. -/
theorem C87_text (b : Builder T Str) (hw : b.wr = stringWriter) (hf : b.customFormatters = []) (hc : b.printContext = none) (hi : Ws u b.indentBy) (hl : Ws u b.leadingIndent)
    (v : Value T) (hv : Textual u v) :
    ∃ s w, b.toString u v = some s ∧ (∀ rest, PlainFollow s rest → fromStr u (s ++ rest) = some (.ok w, rest)) ∧
      ∀ t, ¬ TyPart .value t → (∀ d, t.de v.der = some d → t.de w.der = some d) ∧ (¬ TyPart .bytes t → t.de w.der = t.de v.der) := by
  obtain ⟨s, h1, h2⟩ := C06_all_styles_round_trip b hw hf hc hi hl _ ((printable_unsign u v).2 hv)
  rw [toString_unsign u b hf v] at h1
  refine ⟨s, _, h1, h2, fun t ht => ⟨fun d hd => ?_, fun hb => ?_⟩⟩
  · exact C87_unsigned t ht v _ (sameData_unsign v) (unsign_noSigned v) d hd
  · exact (C87_reading_sees_data t hb ht v _ (sameData_unsign v)).symm

/-- C87: data of a Rust type (of those of C48, in which no variant has a name that is mistaken for a boolean) can be kept as text: `to_value`, writing in any style, `from_str` and `from_value` give it back. -/
theorem C87_typed (t : Ty) (ht : Returns t) (hn : NamesOk u t) (d : Dat) (x : Ser) (h : t.ser d = some x) :
    ∃ v, x.toValue = .ok v ∧
      ∀ (st : Style) (ib li : Str), Ws u ib → Ws u li →
        ∃ s w, (Builder.mk stringWriter st [] ib li none).toString u v = some s ∧ t.de w.der = some d ∧
          ∀ rest, PlainFollow s rest → fromStr u (s ++ rest) = some (.ok w, rest) := by
  obtain ⟨v, h1, h2⟩ := C48_round_trip t ht d x h
  refine ⟨v, h1, fun st ib li hi hl => ?_⟩
  obtain ⟨s, w, h3, h4, h5⟩ := C87_text (Builder.mk stringWriter st [] ib li none) rfl rfl rfl hi hl v (returns_text ht hn d x v h h1)
  exact ⟨s, w, h3, (h5 t (returns_noValue ht)).1 d h2, h4⟩

/-- C87 for `Display`. -/
theorem C87_display (t : Ty) (ht : Returns t) (hn : NamesOk u t) (d : Dat) (x : Ser) (h : t.ser d = some x) (alt : Bool) :
    ∃ v s w, x.toValue = .ok v ∧ v.toString u alt = some s ∧ fromStr u s = some (.ok w, []) ∧ t.de w.der = some d := by
  obtain ⟨v, h1, h2⟩ := C48_round_trip t ht d x h
  have hv := returns_text (u := u) ht hn d x v h h1
  obtain ⟨s, h3, h4⟩ := C05_display_round_trip alt _ ((printable_unsign u v).2 hv)
  rw [toString_eq, toString_unsign u _ (by cases alt <;> rfl) v, ← toString_eq] at h3
  exact ⟨v, s, _, h1, h3, by simpa using h4 [] (fun _ => trivial), C87_unsigned t (returns_noValue ht) v _ (sameData_unsign v) (unsign_noSigned v) d h2⟩

/-- C87: hence different data have different texts. -/
theorem C87_distinct (t : Ty) (ht : Returns t) (hn : NamesOk u t) (d d' : Dat) (x x' : Ser) (h : t.ser d = some x) (h' : t.ser d' = some x') (v v' : Value Unit) (hv : x.toValue = .ok v)
    (hv' : x'.toValue = .ok v') (alt : Bool) (he : v.toString u alt = v'.toString u alt) : d = d' := by
  obtain ⟨a, s, w, h1, h2, h3, h4⟩ := C87_display t ht hn d x h alt
  obtain ⟨a', s', w', h1', h2', h3', h4'⟩ := C87_display t ht hn d' x' h' alt
  rw [hv] at h1; cases h1
  rw [hv'] at h1'; cases h1'
  rw [h2, h2'] at he
  cases he
  rw [h3] at h3'
  cases h3'
  rw [h4] at h4'
  cases h4'
  rfl

/-- C87: and the bytes of data can be: what `derive(Encode)` gives is decoded, written as text, parsed and read as the data. -/
theorem C87_bytes {ix : List (Str × VTy) → Str → UInt8} {reg : Reg Id} (a : Ty) (t : Id) (hi : Info ix reg a t) (ha : Returns a) (hn : NamesOk u a) (d : Dat) (bs : List UInt8) (h : Static ix a d bs) (alt : Bool) (r : List UInt8) :
    ∃ v s w, decodeAsType reg (fun _ => true) t (bs ++ r) = .ok (v, r) ∧ v.toString u alt = some s ∧ fromStr u s = some (.ok w, []) ∧ a.de w.der = some d := by
  obtain ⟨x, v, h1, h2, h3, -⟩ := C56_decode a t hi d bs h
  obtain ⟨v', s, w, h4, h5, h6, h7⟩ := C87_display a ha hn d x h1 alt
  rw [h2] at h4
  cases h4
  exact ⟨v, s, w, h3 r, h5, h6, h7⟩

/-! ### C87 is about something -/

/-- The struct of the examples of C48: its names are fine. -/
theorem exStruct_names : NamesOk Uni.ascii exStruct := by
  intro vs h
  cases h with
  | struct hf h =>
    simp only [List.mem_cons, List.not_mem_nil, or_false] at hf
    rcases hf with rfl | rfl
    · cases h with
      | self =>
        intro p hp
        simp only [List.mem_cons, List.not_mem_nil, or_false] at hp
        rcases hp with rfl | rfl | rfl <;> intro _ <;> decide
      | enumNewtype hv h => simp at hv
      | enumTuple hv ht h =>
        simp at hv
        obtain ⟨-, rfl⟩ := hv
        simp at ht
        rcases ht with rfl | rfl
        · cases h
        · cases h with | option h => cases h
      | enumStruct hv ht h =>
        simp at hv
        obtain ⟨-, rfl⟩ := hv
        simp at ht
        subst ht
        cases h with | seq h => cases h
    · cases h with | map h => cases h

example : ∃ v s w, (∃ x, exStruct.ser exDat = some x ∧ x.toValue = .ok v) ∧ v.toString .ascii true = some s ∧ fromStr .ascii s = some (.ok w, []) ∧ exStruct.de w.der = some exDat := by
  obtain ⟨x, hx⟩ : ∃ s, exStruct.ser exDat = some s := ⟨_, rfl⟩
  obtain ⟨v, s, w, h1, h2, h3, h4⟩ := C87_display _ exStruct_returns exStruct_names exDat x hx true
  exact ⟨v, s, w, ⟨x, hx, h1⟩, h2, h3, h4⟩

/-- Byte buffers have to be excluded in `C87_reading_sees_data`: a signed 5 is not read as a byte, while its text is read as an unsigned 5, which is. -/
theorem C87_bytes_are_unsigned :
    let v : Value Unit := .mk (.composite (.unnamed [.mk (.primitive (.i128 ⟨5, by decide, by decide⟩)) ()])) ()
    let w : Value Unit := .mk (.composite (.unnamed [.mk (.primitive (.u128 ⟨5, by decide⟩)) ()])) ()
    SameData v w ∧ Ty.bytes.de v.der = none ∧ Ty.bytes.de w.der = some (.bytes [5]) ∧ v.toString .ascii false = some "(5)".toList ∧ fromStr .ascii "(5)".toList = some (.ok w, []) := by
  refine ⟨.unnamed rfl ?_, rfl, rfl, by decide +kernel, rfl⟩
  intro i x y hx hy
  match i with
  | 0 => cases hx; cases hy; exact .number rfl rfl
  | i + 1 => cases hx

/-- Names have to be fine: `enum E { trueish }` does not come back. -/
example : (∃ x v, (Ty.enum [("trueish".toList, .unit)]).ser (.enum "trueish".toList []) = some x ∧ x.toValue = .ok v ∧ v.toString .ascii false = some "trueish ()".toList) ∧
    fromStr .ascii "trueish ()".toList = some (.ok (.mk (.primitive (.bool true)) ()), "ish ()".toList) :=
  ⟨⟨_, _, rfl, rfl, by decide +kernel⟩, rfl⟩

end SV
