import Verif.Spec.Parts
import Verif.Proofs.Prefix
import Verif.Props.Decode
/-
Property C78: bytes that arrive in parts.
-/
namespace SV

variable {Id Γ : Type}

theorem isCodec_iff {e : DErr} : isCodec e = true ↔ e = .codec := by cases e <;> simp [isCodec]
theorem reason_why {V : Type} (e : TErr V) : e.reason = e.why := by cases e <;> rfl

/-- C78: an error other than one of the codec stands, whatever bytes may follow; so does a panic; and so does a value. -/
theorem C78_final (ctx : Id → Γ) (reg : Reg Id) (al : Nat → Bool) (t : Id) (bs more : List UInt8) :
    (∀ e, decodeWith ctx reg al t bs = .err e → e ≠ .codec → decodeWith ctx reg al t (bs ++ more) = .err e) ∧
    (decodeWith ctx reg al t bs = .panic → decodeWith ctx reg al t (bs ++ more) = .panic) ∧
    (∀ v r, decodeWith ctx reg al t bs = .ok (v, r) → decodeWith ctx reg al t (bs ++ more) = .ok (v, r ++ more)) := by
  have := decodeWith_part ctx reg al t bs more
  refine ⟨fun e h he => ?_, fun h => ?_, fun v r h => ?_⟩ <;> rw [h] at this <;> generalize decodeWith ctx reg al t (bs ++ more) = b at this ⊢
  · generalize hb : some b = b' at this
    cases this with
    | err e => cases hb; rfl
    | soft e b h => exact (he h).elim
  · generalize hb : some b = b' at this
    cases this with
    | panic => cases hb; rfl
  · generalize hb : some b = b' at this
    cases this with
    | ok v r => cases hb; rfl

/-- C78: the same for the tracing decoder, with the path and the partial value of the error. -/
theorem C78_traced_final (reg : Reg Id) (al : Nat → Bool) (t : Id) (bs more : List UInt8) :
    (∀ e, traceDecode reg al t bs = .err e → e.reason ≠ .codec → traceDecode reg al t (bs ++ more) = .err e) ∧
    (traceDecode reg al t bs = .panic → traceDecode reg al t (bs ++ more) = .panic) ∧
    (∀ v r, traceDecode reg al t bs = .ok (v, r) → traceDecode reg al t (bs ++ more) = .ok (v, r ++ more)) := by
  have := traceDecode_part reg al t bs more
  refine ⟨fun e h he => ?_, fun h => ?_, fun v r h => ?_⟩ <;> rw [h] at this <;> generalize traceDecode reg al t (bs ++ more) = b at this ⊢
  · generalize hb : some b = b' at this
    cases this with
    | err e => cases hb; rfl
    | soft e b h => exact (he ((reason_why _).trans h)).elim
  · generalize hb : some b = b' at this
    cases this with
    | panic => cases hb; rfl
  · generalize hb : some b = b' at this
    cases this with
    | ok v r => cases hb; rfl

/-- C78: the bytes of a value with some missing at the end are always an error of the codec (not another error, and no panic). -/
theorem C78_truncated (ctx : Id → Γ) (reg : Reg Id) (al : Nat → Bool) (t : Id) (p q : List UInt8) (v : Value Γ)
    (h : decodeWith ctx reg al t (p ++ q) = .ok (v, [])) (hq : q ≠ []) : decodeWith ctx reg al t p = .err .codec := by
  obtain ⟨h1, h2, -⟩ := C78_final ctx reg al t p q
  rcases hp : decodeWith ctx reg al t p with ⟨x⟩ | e | _
  · exact (C27_truncated ctx reg al t p q v h hq x hp).elim
  · by_cases he : e = .codec
    · rw [he]
    · rw [h1 e hp he] at h; cases h
  · rw [h2 hp] at h; cases h

/-- C78: the same for the tracing decoder. -/
theorem C78_traced_truncated (reg : Reg Id) (al : Nat → Bool) (t : Id) (p q : List UInt8) (v : Value Id)
    (h : traceDecode reg al t (p ++ q) = .ok (v, [])) (hq : q ≠ []) : ∃ e, traceDecode reg al t p = .err e ∧ e.reason = .codec := by
  obtain ⟨h1, h2, h3⟩ := C78_traced_final reg al t p q
  rcases hp : traceDecode reg al t p with ⟨x, r⟩ | e | _
  · rw [h3 x r hp] at h
    injection h with h
    injection h with _ h
    exact (hq (List.append_eq_nil_iff.1 h).2).elim
  · by_cases he : e.reason = .codec
    · exact ⟨e, rfl, he⟩
    · rw [h1 e hp he] at h; cases h
  · rw [h2 hp] at h; cases h

/-- C78: so a value can be read from bytes which arrive in parts, of any sizes, by trying again as long as there are errors of the codec: the outcome is that of decoding all of the bytes. -/
theorem C78_parts (ctx : Id → Γ) (reg : Reg Id) (al : Nat → Bool) (t : Id) (parts : List (List UInt8)) :
    readParts isCodec (decodeWith ctx reg al t) [] parts = decodeWith ctx reg al t parts.flatten := by
  suffices h : ∀ (parts : List (List UInt8)) buf, readParts isCodec (decodeWith ctx reg al t) buf parts = decodeWith ctx reg al t (buf ++ parts.flatten) by simpa using h parts []
  intro parts
  induction parts with
  | nil => intro buf; simp [readParts]
  | cons part parts ih =>
    intro buf
    obtain ⟨h1, h2, h3⟩ := C78_final ctx reg al t buf (part :: parts).flatten
    rw [readParts]
    rcases hp : decodeWith ctx reg al t buf with ⟨v, r⟩ | e | _
    · rw [h3 v r hp]
    · dsimp only
      split
      · rw [ih]; simp [List.append_assoc]
      · rename_i he
        rw [h1 e hp (fun h => he (isCodec_iff.2 h))]
    · rw [h2 hp]

/-- C78: the same for the tracing decoder. -/
theorem C78_traced_parts (reg : Reg Id) (al : Nat → Bool) (t : Id) (parts : List (List UInt8)) :
    readParts (fun e => isCodec e.reason) (traceDecode reg al t) [] parts = traceDecode reg al t parts.flatten := by
  suffices h : ∀ (parts : List (List UInt8)) buf, readParts (fun e => isCodec e.reason) (traceDecode reg al t) buf parts = traceDecode reg al t (buf ++ parts.flatten) by simpa using h parts []
  intro parts
  induction parts with
  | nil => intro buf; simp [readParts]
  | cons part parts ih =>
    intro buf
    obtain ⟨h1, h2, h3⟩ := C78_traced_final reg al t buf (part :: parts).flatten
    rw [readParts]
    rcases hp : traceDecode reg al t buf with ⟨v, r⟩ | e | _
    · rw [h3 v r hp]
    · dsimp only
      split
      · rw [ih]; simp [List.append_assoc]
      · rename_i he
        rw [h1 e hp (fun h => he (isCodec_iff.2 h))]
    · rw [h2 hp]

/-- C78: decoding a list of fields is the same, and the cursor with more bytes is where it was with fewer. (`decode_composite_as_fields` leaves it at the beginning if there was an error.) -/
theorem C78_fields (reg : Reg Id) (al : Nat → Bool) (fs : List (Field Id)) (bs more : List UInt8) :
    ((decodeCompositeAsFields reg al fs bs).1 ≠ .err .codec →
      decodeCompositeAsFields reg al fs (bs ++ more) = ((decodeCompositeAsFields reg al fs bs).1, (decodeCompositeAsFields reg al fs bs).2 ++ more)) ∧
    ((compositeDecodeAsFields reg al fs bs).1 ≠ .err .codec →
      compositeDecodeAsFields reg al fs (bs ++ more) = ((compositeDecodeAsFields reg al fs bs).1, (compositeDecodeAsFields reg al fs bs).2 ++ more)) := by
  have key : ∀ {Γ : Type} (ctx : Id → Γ), CutAt SoftP (moreP more) more (some (decodeFields ctx reg al fs bs)) (some (decodeFields ctx reg al fs (bs ++ more))) := by
    intro Γ ctx
    obtain ⟨n, hn⟩ := (decodeFields_eq (ctx := ctx) (reg := reg) (al := al) (fs := fs) (bs := bs)).1 rfl
    obtain ⟨m, hm⟩ := (decodeFields_eq (ctx := ctx) (reg := reg) (al := al) (fs := fs) (bs := bs ++ more)).1 rfl
    have h1 := decComposite_ext al (decN_mono reg al ctx (Nat.le_max_left n m) false) _ _ _ hn
    have h2 := decComposite_ext al (decN_mono reg al ctx (Nat.le_max_right n m) false) _ _ _ hm
    rw [← h1, ← h2]
    exact decComposite_part al more (decN_part reg al ctx more _ false) fs bs
  refine ⟨fun h => ?_, fun h => ?_⟩
  · have := key (id : Id → Id)
    unfold decodeCompositeAsFields at h ⊢
    rcases ha : decodeFields id reg al fs bs with ⟨v, r⟩ | ⟨e, r⟩ | _ <;> rw [ha] at this h <;>
      generalize hb : some (decodeFields id reg al fs (bs ++ more)) = b at this <;> cases this
    · rw [Option.some.inj hb]
    · rw [Option.some.inj hb]; rfl
    · rename_i h'; exact (h (congrArg Out.err h')).elim
    · rw [Option.some.inj hb]
  · have := key (fun _ : Id => ())
    unfold compositeDecodeAsFields at h ⊢
    rcases ha : decodeFields (fun _ => ()) reg al fs bs with ⟨v, r⟩ | ⟨e, r⟩ | _ <;> rw [ha] at this h <;>
      generalize hb : some (decodeFields (fun _ => ()) reg al fs (bs ++ more)) = b at this <;> cases this
    · rw [Option.some.inj hb]
    · rw [Option.some.inj hb]; rfl
    · rename_i h'; exact (h (congrArg Out.err h')).elim
    · rw [Option.some.inj hb]

/-- C78: the same for fields that are decoded to a `Value`. -/
theorem C78_value_fields (reg : Reg Id) (al : Nat → Bool) (fs : List (Field Id)) (bs more : List UInt8) (h : (valueDecodeAsFields reg al fs bs).1 ≠ .err .codec) :
    valueDecodeAsFields reg al fs (bs ++ more) = ((valueDecodeAsFields reg al fs bs).1, (valueDecodeAsFields reg al fs bs).2 ++ more) := by
  have key := (C78_fields reg al fs bs more).2
  unfold valueDecodeAsFields at h ⊢
  rcases hc : compositeDecodeAsFields reg al fs bs with ⟨v | e | _, r⟩ <;> rw [hc] at key h
  · rw [key (by simp)]
  · rw [key (by intro h'; exact h (by rw [Out.err.inj h']))]
  · rw [key (by simp)]

theorem readParts_final {A : Type} (f : List UInt8 → Out DErr A × List UInt8)
    (hf : ∀ bs more, (f bs).1 ≠ .err .codec → f (bs ++ more) = ((f bs).1, (f bs).2 ++ more)) (parts : List (List UInt8)) :
    readParts isCodec (fun bs => atCursor (f bs)) [] parts = atCursor (f parts.flatten) := by
  suffices h : ∀ (parts : List (List UInt8)) buf, readParts isCodec (fun bs => atCursor (f bs)) buf parts = atCursor (f (buf ++ parts.flatten)) by simpa using h parts []
  intro parts
  induction parts with
  | nil => intro buf; simp [readParts]
  | cons part parts ih =>
    intro buf
    have h1 := hf buf (part :: parts).flatten
    rw [readParts]
    rcases hp : f buf with ⟨v | e | _, r⟩ <;> rw [hp] at h1
    · rw [h1 (by simp)]; simp only [atCursor]
    · have ha : atCursor ((Out.err e, r) : Out DErr A × List UInt8) = .err e := rfl
      rw [ha]; dsimp only
      split
      · rw [ih]; simp [List.append_assoc]
      · rename_i he
        rw [h1 (by intro h'; exact he (isCodec_iff.2 (Out.err.inj h')))]; rfl
    · rw [h1 (by simp)]; rfl

theorem final_truncated {A : Type} {f : List UInt8 → Out DErr A × List UInt8}
    (hf : ∀ bs more, (f bs).1 ≠ .err .codec → f (bs ++ more) = ((f bs).1, (f bs).2 ++ more)) {p q : List UInt8} {v : A} (h : f (p ++ q) = (.ok v, [])) (hq : q ≠ []) :
    (f p).1 = .err .codec := by
  refine Classical.byContradiction fun hn => ?_
  rw [hf p q hn] at h
  exact hq (List.append_eq_nil_iff.1 (Prod.mk.inj h).2).2

/-- C78: the bytes of a list of fields with some missing at the end are always an error of the codec. -/
theorem C78_fields_truncated (reg : Reg Id) (al : Nat → Bool) (fs : List (Field Id)) (p q : List UInt8) (hq : q ≠ []) :
    (∀ c, decodeCompositeAsFields reg al fs (p ++ q) = (.ok c, []) → (decodeCompositeAsFields reg al fs p).1 = .err .codec) ∧
    (∀ c, compositeDecodeAsFields reg al fs (p ++ q) = (.ok c, []) → (compositeDecodeAsFields reg al fs p).1 = .err .codec) ∧
    (∀ v, valueDecodeAsFields reg al fs (p ++ q) = (.ok v, []) → (valueDecodeAsFields reg al fs p).1 = .err .codec) :=
  ⟨fun _ h => final_truncated (fun bs more => (C78_fields reg al fs bs more).1) h hq, fun _ h => final_truncated (fun bs more => (C78_fields reg al fs bs more).2) h hq,
    fun _ h => final_truncated (C78_value_fields reg al fs) h hq⟩

/-- C78: so fields can be read from bytes which arrive in parts, in the same way as values. -/
theorem C78_fields_parts (reg : Reg Id) (al : Nat → Bool) (fs : List (Field Id)) (parts : List (List UInt8)) :
    readParts isCodec (fun bs => atCursor (decodeCompositeAsFields reg al fs bs)) [] parts = atCursor (decodeCompositeAsFields reg al fs parts.flatten) ∧
    readParts isCodec (fun bs => atCursor (compositeDecodeAsFields reg al fs bs)) [] parts = atCursor (compositeDecodeAsFields reg al fs parts.flatten) ∧
    readParts isCodec (fun bs => atCursor (valueDecodeAsFields reg al fs bs)) [] parts = atCursor (valueDecodeAsFields reg al fs parts.flatten) :=
  ⟨readParts_final _ (fun bs more => (C78_fields reg al fs bs more).1) parts, readParts_final _ (fun bs more => (C78_fields reg al fs bs more).2) parts,
    readParts_final _ (C78_value_fields reg al fs) parts⟩

/-- C78 is about something: `(struct { a: u8, b: Vec<u8> }, enum { .. })` arrives in three parts, and something else after it. -/
example : readParts isCodec (decodeValueAsType exReg (fun _ => true) 13) [] [[7, 4], [9, 5], [1, 2, 99]] =
    decodeValueAsType exReg (fun _ => true) 13 [7, 4, 9, 5, 1, 2, 99] := C78_parts id exReg _ 13 [[7, 4], [9, 5], [1, 2, 99]]

/-- The first part alone is an error of the codec; an unknown variant (index 6) is final at once. -/
example : decodeValueAsType exReg (fun _ => true) 13 [7, 4] = .err .codec ∧ decodeValueAsType exReg (fun _ => true) 13 [7, 0, 6] = .err (.variantNotFound 6) :=
  ⟨decodeWith_eq.2 ⟨5, rfl⟩, decodeWith_eq.2 ⟨5, rfl⟩⟩

/-- Not every error of the codec is cured by more bytes: a `bool` of 2. -/
example (more : List UInt8) : decodeValueAsType exReg (fun _ => true) 12 ([2] ++ more) = .err .codec := decodeWith_eq.2 ⟨1, rfl⟩

end SV
