import Verif.Proofs.DecFault
import Verif.Spec.ExReg
/-
C80: the error of decoding is the first thing that is wrong.
-/
namespace SV

variable {Id Γ : Type}

/-- C80: decoding fails with an error exactly when, reading on from the beginning, this is the first thing that is wrong. -/
theorem C80_error (ctx : Id → Γ) (reg : Reg Id) (al : Nat → Bool) (t : Id) (bs : List UInt8) (e : DErr) : decodeWith ctx reg al t bs = .err e ↔ DecFault reg al false t bs e := by
  have h : decodeWith ctx reg al t bs = _ := decodeWith_map ctx reg al id t bs
  rw [← decodeId_err, h]
  cases decodeWith id reg al t bs <;> simp [Out.map]

/-- C80: it panics exactly when it comes to parts for which memory cannot be had, before anything else is wrong. -/
theorem C80_panic (ctx : Id → Γ) (reg : Reg Id) (al : Nat → Bool) (t : Id) (bs : List UInt8) : decodeWith ctx reg al t bs = .panic ↔ Starved reg al false t bs := by
  have h : decodeWith ctx reg al t bs = _ := decodeWith_map ctx reg al id t bs
  rw [← decodeId_panic, h]
  cases decodeWith id reg al t bs <;> simp [Out.map]

/-- C80: so of any bytes either a part is a value of the type, or something is first wrong, or the memory is first missing: this is only one thing. -/
theorem C80_one (reg : Reg Id) (al : Nat → Bool) (t : Id) (bs : List UInt8) :
    ((∃ v p r, bs = p ++ r ∧ Scale reg False .u256 id false t v p ∧ AllocOk al v) ∨ (∃ e, DecFault reg al false t bs e) ∨ Starved reg al false t bs) ∧
    (∀ e, DecFault reg al false t bs e → ¬ Starved reg al false t bs ∧ (∀ e', DecFault reg al false t bs e' → e' = e) ∧ ∀ v p r, bs = p ++ r → Scale reg False .u256 id false t v p → ¬ AllocOk al v) ∧
    (Starved reg al false t bs → ∀ v p r, bs = p ++ r → Scale reg False .u256 id false t v p → ¬ AllocOk al v) := by
  have ok : ∀ v p r, bs = p ++ r → Scale reg False .u256 id false t v p → AllocOk al v → decodeWith id reg al t bs = .ok (v, r) :=
    fun v p r hb hs ha => decodeWith_ok_iff.2 ⟨ha, p, hb, hs⟩
  refine ⟨?_, ?_, ?_⟩
  · cases h : decodeWith id reg al t bs with
    | ok x =>
      obtain ⟨ha, p, hb, hs⟩ := decodeWith_ok_iff.1 (h : decodeWith id reg al t bs = .ok (x.1, x.2))
      exact .inl ⟨_, p, _, hb, hs, ha⟩
    | err e => exact .inr (.inl ⟨e, decodeId_err.1 h⟩)
    | panic => exact .inr (.inr (decodeId_panic.1 h))
  · intro e he
    have he := decodeId_err.2 he
    refine ⟨fun hs => ?_, fun e' he' => ?_, fun v p r hb hs ha => ?_⟩
    · rw [decodeId_panic.2 hs] at he; cases he
    · rw [decodeId_err.2 he'] at he; cases he; rfl
    · rw [ok v p r hb hs ha] at he; cases he
  · intro hs v p r hb hs' ha
    have := decodeId_panic.2 hs
    rw [ok v p r hb hs' ha] at this; cases this

/-- C80: when fields are decoded it is the same, and the cursor stays at the beginning, or (with `DecodeAsFields`) goes to the field that is wrong. -/
theorem C80_fields (reg : Reg Id) (al : Nat → Bool) (fs : List (Field Id)) (bs r : List UInt8) (e : DErr) :
    (decodeCompositeAsFields reg al fs bs = (.err e, r) ↔ r = bs ∧ ∃ r', FieldsFault reg al fs bs e r') ∧
    (compositeDecodeAsFields reg al fs bs = (.err e, r) ↔ FieldsFault reg al fs bs e r) ∧
    (valueDecodeAsFields reg al fs bs = (.err e, r) ↔ FieldsFault reg al fs bs e r) := by
  have h2 : compositeDecodeAsFields reg al fs bs = (.err e, r) ↔ FieldsFault reg al fs bs e r := by
    rw [← decodeFieldsId_err]
    unfold compositeDecodeAsFields
    rw [decodeFields_map (fun (_ : Id) => ()) reg al id fs bs]
    rcases decodeFields id reg al fs bs with ⟨_, _⟩ | ⟨_, _⟩ | _ <;> simp [Out.map]
  refine ⟨?_, h2, ?_⟩
  · simp only [← decodeFieldsId_err]
    unfold decodeCompositeAsFields
    rcases decodeFields id reg al fs bs with ⟨_, _⟩ | ⟨_, _⟩ | _ <;> simp
    constructor
    · rintro ⟨rfl, rfl⟩; exact ⟨rfl, rfl⟩
    · rintro ⟨rfl, rfl⟩; exact ⟨rfl, rfl⟩
  · rw [← h2]
    unfold valueDecodeAsFields
    rcases compositeDecodeAsFields reg al fs bs with ⟨_ | _ | _, _⟩ <;> simp

/-- C80: decoding fields panics exactly when it comes to where memory cannot be had. -/
theorem C80_fields_panic (reg : Reg Id) (al : Nat → Bool) (fs : List (Field Id)) (bs : List UInt8) :
    ((decodeCompositeAsFields reg al fs bs).1 = .panic ↔ FieldsStarved reg al fs bs) ∧ ((compositeDecodeAsFields reg al fs bs).1 = .panic ↔ FieldsStarved reg al fs bs) ∧
    ((valueDecodeAsFields reg al fs bs).1 = .panic ↔ FieldsStarved reg al fs bs) := by
  have h2 : (compositeDecodeAsFields reg al fs bs).1 = .panic ↔ FieldsStarved reg al fs bs := by
    rw [← decodeFieldsId_panic]
    unfold compositeDecodeAsFields
    rw [decodeFields_map (fun (_ : Id) => ()) reg al id fs bs]
    rcases decodeFields id reg al fs bs with ⟨_, _⟩ | ⟨_, _⟩ | _ <;> simp [Out.map]
  refine ⟨?_, h2, ?_⟩
  · rw [← decodeFieldsId_panic]
    unfold decodeCompositeAsFields
    rcases decodeFields id reg al fs bs with ⟨_, _⟩ | ⟨_, _⟩ | _ <;> simp
  · rw [← h2]
    unfold valueDecodeAsFields
    rcases compositeDecodeAsFields reg al fs bs with ⟨_ | _ | _, _⟩ <;> simp

/-! ### What the errors tell -/

theorem reach_trans {reg : Reg Id} {t u w : Id} (h : Reach reg t u) (h' : Reach reg u w) : Reach reg t w := by
  induction h' with
  | self => exact h
  | step _ hd hw ih => exact .step ih hd hw

theorem nodeFault_tells {reg : Reg Id} {c t bs e} (h : NodeFault reg c t bs e) :
    (e = .typeNotFound → ∃ u, Reach reg t u ∧ reg.resolve u = none) ∧ (∀ i, e = .variantNotFound i → i ∈ bs) ∧ e ≠ .tooManyEntries := by
  induction h with
  | unknown ht => exact ⟨fun _ => ⟨_, .self, ht⟩, by simp, by simp⟩
  | compact ht h ih =>
    refine ⟨fun he => ?_, ih.2⟩
    obtain ⟨u, hu, hn⟩ := ih.1 he
    exact ⟨u, reach_trans (.step .self ht (by simp [TypeDef.refs])) hu, hn⟩
  | variant => simp
  | _ => simp

theorem nodeParts_reach {reg : Reg Id} {c t bs ty c' name fs r} (h : NodeParts reg c t bs ty c' name fs r) :
    (∀ f ∈ fs, Reach reg t f.id) ∧ ∃ q, bs = q ++ r := by
  induction h with
  | compact ht h ih => exact ⟨fun f hf => reach_trans (.step .self ht (by simp [TypeDef.refs])) (ih.1 f hf), ih.2⟩
  | sequence ht hp hn =>
    refine ⟨fun f hf => ?_, _, rfl⟩
    obtain ⟨_, rfl⟩ := List.mem_replicate.1 hf
    exact .step .self ht (by simp [TypeDef.refs])
  | array ht =>
    refine ⟨fun f hf => ?_, [], rfl⟩
    obtain ⟨_, rfl⟩ := List.mem_replicate.1 hf
    exact .step .self ht (by simp [TypeDef.refs])
  | tuple ht =>
    refine ⟨fun f hf => ?_, [], rfl⟩
    obtain ⟨u, hu, rfl⟩ := List.mem_map.1 hf
    exact .step .self ht (by simpa [TypeDef.refs] using hu)
  | composite ht =>
    refine ⟨fun f hf => ?_, [], rfl⟩
    exact .step .self ht (by simp only [TypeDef.refs]; exact List.mem_map_of_mem hf)
  | @variant t pre d post r ht first =>
    refine ⟨fun f hf => ?_, [d.index], rfl⟩
    exact .step .self ht (by simp only [TypeDef.refs, List.mem_flatMap]; exact ⟨d, by simp, List.mem_map_of_mem hf⟩)

theorem decFault_tells {reg : Reg Id} {al : Nat → Bool} {c t bs e} (h : DecFault reg al c t bs e) :
    (e = .typeNotFound → ∃ u, Reach reg t u ∧ reg.resolve u = none) ∧ (∀ i, e = .variantNotFound i → i ∈ bs) ∧ e ≠ .tooManyEntries := by
  induction h with
  | here h => exact nodeFault_tells h
  | part h mem hf hr before room fault ih =>
    obtain ⟨h1, q, hq⟩ := nodeParts_reach h
    refine ⟨fun he => ?_, fun i hi => ?_, ih.2.2⟩
    · obtain ⟨u, hu, hn⟩ := ih.1 he
      exact ⟨u, reach_trans (h1 _ (List.mem_of_getElem? hf)) hu, hn⟩
    · have := ih.2.1 i hi
      rw [hq, hr]
      simp [this]

/-- C80: that a type is not in the registry is never said unless one that occurs in the type is not; a variant index that is complained about is in the bytes; and the plain decoder has no limit to complain about. -/
theorem C80_tells (ctx : Id → Γ) (reg : Reg Id) (al : Nat → Bool) (t : Id) (bs : List UInt8) :
    (decodeWith ctx reg al t bs = .err .typeNotFound → ∃ u, Reach reg t u ∧ reg.resolve u = none) ∧
    (∀ i, decodeWith ctx reg al t bs = .err (.variantNotFound i) → i ∈ bs) ∧ decodeWith ctx reg al t bs ≠ .err .tooManyEntries :=
  ⟨fun h => (decFault_tells ((C80_error ..).1 h)).1 rfl, fun i h => (decFault_tells ((C80_error ..).1 h)).2.1 i rfl, fun h => (decFault_tells ((C80_error ..).1 h)).2.2 rfl⟩

/-- C80 is about something: the four bytes of a surrogate are not a `char`, and one byte is not either, for another reason. -/
example : decodeWith id exReg (fun _ => true) 11 [0, 0xd8, 0, 0] = .err .invalidChar ∧ decodeWith id exReg (fun _ => true) 11 [0] = .err .codec := by
  constructor
  · refine (C80_error ..).2 (.here (.char (p := [0, 0xd8, 0, 0]) (r := []) rfl rfl (fun c hc => ?_)))
    have h := hc.2
    have hv := c.valid
    have : c.toNat = 0xd800 := by rw [← h]; rfl
    simp only [Char.toNat] at this
    simp [UInt32.isValidChar, Nat.isValidChar, this] at hv
  · exact (C80_error ..).2 (.here (.charShort rfl (by decide)))

/-- C80: in `(struct { a: u8, b: Vec<u8> }, enum)` there is no variant with index 6, which is after a good struct. -/
example : decodeWith id exReg (fun _ => true) 13 [1, 4, 9, 6] = .err (.variantNotFound 6) ∧ DecFault exReg (fun _ => true) false 13 [1, 4, 9, 6] (.variantNotFound 6) := by
  have h : decodeWith id exReg (fun _ => true) 13 [1, 4, 9, 6] = .err (.variantNotFound 6) := decodeWith_eq.2 ⟨5, rfl⟩
  exact ⟨h, (C80_error ..).1 h⟩

/-- C80: memory for two values only: the vector of three in the struct cannot be had, although the bytes end before anything of it is read. -/
example : decodeWith id exReg (fun n => decide (n ≤ 2)) 3 [1, 12] = .panic :=
  (C80_panic ..).2 (.part (k := 1) (f := ⟨some ['b'], 2⟩) (vs := [.mk (.primitive (.u128 ⟨1, by decide⟩)) 0]) (p := [1]) (r' := [12])
    (.composite (fs := [⟨some ['a'], 0⟩, ⟨some ['b'], 2⟩]) rfl (by nofun)) rfl rfl rfl (.cons (bs := [1]) (bs' := []) (.uint (n := ⟨1, by decide⟩) (bs := [1]) rfl .u8 ⟨rfl, rfl⟩) .nil)
    (by intro v hv w c hw hc
        simp only [List.mem_singleton] at hv
        subst hv
        cases hw with
        | self => cases hc
        | child hu => cases hu)
    (.here (.sequence (n := 3) (p := [12]) (r := []) (u := 0) rfl ((isCompact_iff (by decide)).2 (by decide)) (by decide)) rfl))

end SV
