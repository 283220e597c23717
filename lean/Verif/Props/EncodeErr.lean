import Verif.Proofs.EncodeErr
import Verif.Props.EncodeRules
/-
Property C51: the errors of encoding.
-/
namespace SV

variable {Id Γ : Type}

/-! ### C51 -/

/-- C51: encoding a value either succeeds or fails with one error, whatever is in the buffer before. -/
theorem C51_one_error (reg : Reg Id) (cc : Bool) (v : Value Γ) (t : Id) :
    (∃ bs, Okay (v.encode reg cc t) bs) ∨ ∃ e, FailsWith (v.encode reg cc t) e ∧ ∀ e', FailsWith (v.encode reg cc t) e' → e' = e := by
  rcases okay_or_failsWith (append_value reg cc v t) with h | ⟨e, h⟩
  · exact .inl h
  · exact .inr ⟨e, h, fun e' h' => failsWith_unique h' h⟩

/-- C51: the path of an error leads somewhere in the value: every step of it names a field that is there or an index that there is. -/
theorem C51_located (reg : Reg Id) (cc : Bool) (v : Value Γ) (t : Id) (e : EErr Id) (h : FailsWith (v.encode reg cc t) e) : Locates v e.path := by
  obtain ⟨o, h⟩ := h []
  exact locates_all reg cc v t _ _ _ h

/-- C51: the same for encoding as fields. -/
theorem C51_located_fields (reg : Reg Id) (cc : Bool) (v : Value Γ) (fs : List (Field Id)) (e : EErr Id) (h : FailsWith (v.encodeAsFields reg cc fs) e) :
    Locates v e.path := by
  obtain ⟨o, h⟩ := h []
  unfold Value.encodeAsFields at h
  rcases v with ⟨d, x⟩
  cases d with
  | composite c =>
    exact errsIn_fieldsTo (P := Locates (.mk (.composite c) x)) (.here _) (child_locates rfl fun w _ => locates_all reg cc w) (names_uniform reg cc c) fs _ _ _ h
  | variant w => exact errsIn_fail (P := Locates _) (.here _) _ _ _ _ h
  | bitSequence w => exact errsIn_fail (P := Locates _) (.here _) _ _ _ _ h
  | primitive w => exact errsIn_fail (P := Locates _) (.here _) _ _ _ _ h

/-- C51: values other than composites cannot be encoded as fields. -/
theorem C51_not_fields (reg : Reg Id) (cc : Bool) (v : Value Γ) (hv : ∀ c, v.value ≠ .composite c) (fs : List (Field Id)) :
    FailsWith (v.encodeAsFields reg cc fs) ⟨[], .custom⟩ := by
  unfold Value.encodeAsFields
  split
  · exact (hv _ ‹_›).elim
  · exact failsWith_fail _

/-- C51: a composite with another number of values than an array, tuple or struct has entries. -/
theorem C51_wrong_length (reg : Reg Id) (cc : Bool) (vs : List (Value Γ)) (x : Γ) (hl : vs.length ≠ 1) (t : Id) (ts : List Id) (ht : Entries reg t ts)
    (hn : vs.length ≠ ts.length) : FailsWith ((Value.mk (.composite (.unnamed vs)) x).encode reg cc t) ⟨[], .wrongLength vs.length ts.length⟩ := by
  have hc : List.Forall₂ (Stands reg cc) _ vs := children_cases reg cc (.unnamed vs)
  have hl' : ((Composite.unnamed vs).encChildren reg cc).length ≠ 1 := by rw [children_len]; exact hl
  have hlen : ((Composite.unnamed vs).encChildren reg cc).length = vs.length := children_len _
  rw [enc_composite]
  refine failsWith_composite_done (append_children reg cc _) (entries_not_single ht) ?_ (fun c hc => by rw [hc] at hl'; simp at hl')
  have hw := not_wraps_of (entries_not_single ht)
  unfold doEncodeComposite
  cases ht with
  | @array u n ht h1 =>
    rw [ht]; simp only
    rw [List.length_replicate] at hn ⊢
    rw [hlen, if_pos hn]; exact failsWith_fail _
  | tuple ht h1 =>
    rw [ht]; simp only
    rw [okay_asType_tuple hl' hw ht]
    simpa using (failsWith_fieldsTo_order hc (fs := ts.map (fun t => ⟨none, t⟩)) (.inl (unnamed_none reg cc vs))).1 (by simpa using hn)
  | composite ht h1 =>
    rw [ht]; simp only
    rw [okay_asType hl' hw ht]
    simpa using (failsWith_fieldsTo_order hc (.inl (unnamed_none reg cc vs))).1 (by simpa using hn)

/-- C51: with the right number, the error is that of the first value that does not encode, under its index. -/
theorem C51_entries (reg : Reg Id) (cc : Bool) (vs : List (Value Γ)) (x : Γ) (hl : vs.length ≠ 1) (t : Id) (ts : List Id) (ht : Entries reg t ts)
    (hn : vs.length = ts.length) (i : Nat) (e : EErr Id) (hf : FirstFailing reg cc ts vs i e) :
    FailsWith ((Value.mk (.composite (.unnamed vs)) x).encode reg cc t) (e.under (.idx i)) := by
  have hc : List.Forall₂ (Stands reg cc) _ vs := children_cases reg cc (.unnamed vs)
  have hl' : ((Composite.unnamed vs).encChildren reg cc).length ≠ 1 := by rw [children_len]; exact hl
  have hlen : ((Composite.unnamed vs).encChildren reg cc).length = vs.length := children_len _
  rw [enc_composite]
  refine failsWith_composite_done (append_children reg cc _) (entries_not_single ht) ?_ (fun c hc => by rw [hc] at hl'; simp at hl')
  have hw := not_wraps_of (entries_not_single ht)
  unfold doEncodeComposite
  cases ht with
  | @array u n ht h1 =>
    rw [ht]; simp only
    rw [List.length_replicate] at hn
    rw [if_neg (by simp [hlen, hn])]
    subst hn
    obtain ⟨c, -, h⟩ := firstFailing_items (nm := false) hc hf
    simpa using h
  | tuple ht h1 =>
    rw [ht]; simp only
    rw [okay_asType_tuple hl' hw ht]
    obtain ⟨c, h2, h3⟩ := (failsWith_fieldsTo_order hc (fs := ts.map (fun t => ⟨none, t⟩)) (.inl (unnamed_none reg cc vs))).2 (by simpa using hn) i e (by simpa [Function.comp_def] using hf)
    rwa [at_loc h2] at h3
  | composite ht h1 =>
    rw [ht]; simp only
    rw [okay_asType hl' hw ht]
    obtain ⟨c, h2, h3⟩ := (failsWith_fieldsTo_order hc (fs := _) (.inl (unnamed_none reg cc vs))).2 (by simpa using hn) i e hf
    rwa [at_loc h2] at h3

/-- C51: at a sequence type, the error is that of the first value that does not encode, under its name or index. A composite with one value is tried once more
without the composite; but when that fails too then it is the first error that is reported. -/
theorem C51_sequence (reg : Reg Id) (cc : Bool) (c : Composite Γ) (x : Γ) (t u : Id) (ht : reg.resolve t = some (.sequence u)) (i : Nat) (e : EErr Id)
    (hf : FirstFailing reg cc (List.replicate c.vals.length u) c.vals i e) (h1 : ∀ v, c.vals = [v] → Fails (v.encode reg cc t)) :
    FailsWith ((Value.mk (.composite c) x).encode reg cc t) (e.under (c.loc i)) := by
  rw [enc_composite]
  refine failsWith_composite_done (append_children reg cc _) ?_ ?_ ?_
  · intro w hs
    cases hs with
    | composite h => rw [ht] at h; cases h
    | tuple h => rw [ht] at h; cases h
    | array h => rw [ht] at h; cases h
  · unfold doEncodeComposite
    rw [ht]; simp only
    obtain ⟨k, h2, h3⟩ := firstFailing_items (nm := true) (children_cases reg cc c) hf
    rw [if_pos rfl, at_loc h2] at h3
    exact failsWith_seq_right (okay_write _) h3
  · intro k hk
    obtain ⟨v, hv, he⟩ := single_children hk
    rw [he]; exact h1 v hv

/-- C51: at an array type: the number of values is wrong, or the error is that of the first value that does not encode, always under its index. -/
theorem C51_array (reg : Reg Id) (cc : Bool) (c : Composite Γ) (x : Γ) (t u : Id) (n : Nat) (hn : n ≠ 1) (ht : reg.resolve t = some (.array u n))
    (h1 : ∀ v, c.vals = [v] → Fails (v.encode reg cc t)) :
    (c.vals.length ≠ n → FailsWith ((Value.mk (.composite c) x).encode reg cc t) ⟨[], .wrongLength c.vals.length n⟩) ∧
    (c.vals.length = n → ∀ i e, FirstFailing reg cc (List.replicate n u) c.vals i e → FailsWith ((Value.mk (.composite c) x).encode reg cc t) (e.under (.idx i))) := by
  have hs := entries_not_single (.array ht hn)
  have h1' : ∀ k, c.encChildren reg cc = [k] → Fails (k.enc t) := by
    intro k hk
    obtain ⟨v, hv, he⟩ := single_children hk
    rw [he]; exact h1 v hv
  have hlen : (c.encChildren reg cc).length = c.vals.length := children_len c
  rw [enc_composite]
  constructor
  · intro hl
    refine failsWith_composite_done (append_children reg cc _) hs ?_ h1'
    unfold doEncodeComposite
    rw [ht]; simp only
    rw [hlen, if_pos hl]; exact failsWith_fail _
  · intro hl i e hf
    refine failsWith_composite_done (append_children reg cc _) hs ?_ h1'
    unfold doEncodeComposite
    rw [ht]; simp only
    rw [if_neg (by simp [hlen, hl])]
    subst hl
    obtain ⟨k, -, h3⟩ := firstFailing_items (nm := false) (children_cases reg cc c) hf
    simpa using h3

/-- C51: a named composite at a struct type with several named fields: the error is about the first field, in the order of the type, that cannot be encoded:
it is missing, or the error of its value is reported under its name. -/
theorem C51_struct (reg : Reg Id) (cc : Bool) (l : List (Str × Value Γ)) (x : Γ) (hl : l ≠ []) (t : Id) (fs : List (Str × Id)) (hf : 2 ≤ fs.length)
    (hr : reg.resolve t = some (.composite (fs.map (fun p => ⟨some p.1, p.2⟩)))) (h1 : ∀ n v, l = [(n, v)] → Fails (v.encode reg cc t)) (e : EErr Id)
    (he : FirstField reg cc l fs e) : FailsWith ((Value.mk (.composite (.named l)) x).encode reg cc t) e := by
  have hen : Entries reg t _ := .composite hr (by rw [List.length_map]; omega)
  have hw := not_wraps_of (entries_not_single hen)
  rw [enc_named]
  refine failsWith_composite_done (append_fields reg cc l) (entries_not_single hen) ?_ ?_
  · unfold doEncodeComposite
    rw [hr]
    simp only
    unfold encCompositeAsType
    rw [skip_done hw, hr]
    simp only
    split
    · rename_i h3 h2; rw [h2] at h3
      cases l with
      | nil => simp at h2
      | cons p l => simp at h2; rw [← h2.1] at h3; simp [childNamed] at h3
    · exact failsWith_fieldsTo_named hl he
  · intro k hk
    obtain ⟨p, l', rfl, h2, h3⟩ := List.map_eq_cons_iff.1 hk
    rw [List.map_eq_nil_iff] at h3
    subst h2 h3
    exact h1 p.1 p.2 rfl

/-- C51: the same for a list of fields. -/
theorem C51_fields (reg : Reg Id) (cc : Bool) (l : List (Str × Value Γ)) (hl : l ≠ []) (fs : List (Str × Id)) (e : EErr Id) (he : FirstField reg cc l fs e) :
    FailsWith ((Composite.named l).encodeAsFields reg cc (fs.map (fun p => ⟨some p.1, p.2⟩))) e := by
  unfold Composite.encodeAsFields
  rw [Composite.encChildren, encNamed_eq]
  exact failsWith_fieldsTo_named hl he

theorem lastNamed_of_mem {n : Str} : ∀ {l : List (Str × Value Γ)}, (∃ v, (n, v) ∈ l) → ∃ v, LastNamed l n v
  | [], ⟨v, hv⟩ => by cases hv
  | p :: l, ⟨v, hv⟩ => by
    by_cases hm : ∃ v, (n, v) ∈ l
    · obtain ⟨v', a, b, h1, h2⟩ := lastNamed_of_mem hm
      exact ⟨v', p :: a, b, by rw [h1]; rfl, h2⟩
    · rcases List.mem_cons.1 hv with rfl | hv
      · exact ⟨v, [], l, rfl, fun w hw => hm ⟨w, hw⟩⟩
      · exact (hm ⟨v, hv⟩).elim

/-- C51: the conditions of these theorems are exhaustive: if a named composite does not encode at a list of fields then there is a first field to blame. -/
theorem C51_fields_exhaustive (reg : Reg Id) (cc : Bool) (l : List (Str × Value Γ)) (hl : l ≠ []) (fs : List (Str × Id)) (hf : fs ≠ []) (e : EErr Id) :
    FailsWith ((Composite.named l).encodeAsFields reg cc (fs.map (fun p => ⟨some p.1, p.2⟩))) e ↔ FirstField reg cc l fs e := by
  refine ⟨fun h => ?_, C51_fields reg cc l hl fs e⟩
  have key : ∀ (done fs' : List (Str × Id)) (bs : List UInt8), EncByName reg cc l done bs → fs = done ++ fs' → (∃ bs', EncByName reg cc l fs bs') ∨ ∃ e, FirstField reg cc l fs e := by
    intro done fs'
    induction fs' generalizing done with
    | nil => intro bs h hd; rw [List.append_nil] at hd; exact .inl ⟨bs, by rw [hd]; exact h⟩
    | cons f fs' ih =>
      obtain ⟨n, t⟩ := f
      intro bs h hd
      by_cases hm : ∃ v, (n, v) ∈ l
      · obtain ⟨v, hv⟩ := lastNamed_of_mem hm
        rcases okay_or_failsWith (append_value reg cc v t) with ⟨b, ho⟩ | ⟨e', he'⟩
        · refine ih (done ++ [(n, t)]) (bs ++ b) ?_ (by rw [hd]; simp)
          clear ih hd
          induction h with
          | nil => simpa using EncByName.cons hv ho .nil
          | cons h1 h2 _ ih' => rw [List.append_assoc]; exact .cons h1 h2 ih'
        · exact .inr ⟨_, .fails hd h hv he'⟩
      · exact .inr ⟨_, .missing hd h (fun v hv => hm ⟨v, hv⟩)⟩
  rcases key [] fs [] .nil rfl with ⟨bs, hb⟩ | ⟨e', he'⟩
  · exact (okay_not_fails ((C32_fields reg cc l fs hf bs).2 hb) (failsWith_fails h)).elim
  · rwa [failsWith_unique h (C51_fields reg cc l hl fs e' he')]

/-- C51: a variant at an enum type: there is no variant of that name; or the errors are those of its fields. -/
theorem C51_variant (reg : Reg Id) (cc : Bool) (n : Str) (x : Γ) (t u : Id) (hu : Innermost reg t u) (ds : List (VariantDef Id)) (hr : reg.resolve u = some (.variant ds)) :
    ((∀ d ∈ ds, d.name ≠ n) → ∀ c, FailsWith ((Value.mk (.variant (.mk n c)) x).encode reg cc t) ⟨[], .cannotFindVariant n u⟩) ∧
    (∀ d, ds.find? (fun d => d.name == n) = some d →
      (∀ vs : List (Value Γ), vs.length ≠ d.fields.length →
        FailsWith ((Value.mk (.variant (.mk n (.unnamed vs))) x).encode reg cc t) ⟨[], .wrongLength vs.length d.fields.length⟩) ∧
      (∀ (vs : List (Value Γ)) i e, vs.length = d.fields.length → FirstFailing reg cc (d.fields.map (fun f => f.id)) vs i e →
        FailsWith ((Value.mk (.variant (.mk n (.unnamed vs))) x).encode reg cc t) (e.under (.idx i))) ∧
      (∀ (l : List (Str × Value Γ)) (fs : List (Str × Id)) e, l ≠ [] → d.fields = fs.map (fun p => ⟨some p.1, p.2⟩) → FirstField reg cc l fs e →
        FailsWith ((Value.mk (.variant (.mk n (.named l))) x).encode reg cc t) e)) := by
  constructor
  · intro hd c
    rw [enc_variant]; unfold encVariant
    rw [findSingle_iff.2 hu, hr]
    simp only
    rw [List.find?_eq_none.2 (by simpa using hd)]
    exact failsWith_fail _
  · intro d hd
    have key : ∀ (c : Composite Γ) e, FailsWith (encFieldsTo (c.encChildren reg cc) d.fields) e → FailsWith ((Value.mk (.variant (.mk n c)) x).encode reg cc t) e := by
      intro c e h
      rw [enc_variant]; unfold encVariant
      rw [findSingle_iff.2 hu, hr]
      simp only
      rw [hd]
      exact failsWith_seq_right (okay_write _) h
    refine ⟨?_, ?_, ?_⟩
    · intro vs hl
      exact key _ _ ((failsWith_fieldsTo_order (children_cases reg cc (.unnamed vs)) (.inl (unnamed_none reg cc vs))).1 hl)
    · intro vs i e hl hf
      obtain ⟨c, h2, h3⟩ := (failsWith_fieldsTo_order (children_cases reg cc (.unnamed vs)) (.inl (unnamed_none reg cc vs))).2 hl i e hf
      rw [at_loc h2] at h3
      exact key _ _ h3
    · intro l fs e hl hfs hf
      refine key _ _ ?_
      rw [hfs, Composite.encChildren, encNamed_eq]
      exact failsWith_fieldsTo_named hl hf

/-- A number, for errors: integers and characters. -/
def IsNumeric (v : Value Γ) : Prop := (∃ n, v.value = .primitive (.u128 n)) ∨ (∃ n, v.value = .primitive (.i128 n)) ∨ ∃ c, v.value = .primitive (.char c)

/-- An integer type or the `Compact` of one. -/
def NumberType (reg : Reg Id) (u : Id) : Prop :=
  (∃ p, reg.resolve u = some (.primitive p) ∧ ∃ k, UintType p k ∨ IntType p k) ∨
  ∃ w y p k, reg.resolve u = some (.compact w) ∧ Innermost reg w y ∧ reg.resolve y = some (.primitive p) ∧ UintType p k

theorem failsWith_num {reg : Reg Id} {cc : Bool} {n : Int} {t : Id} (hf : Fails (encNum reg cc n t)) :
    (reg.resolve (findSingle reg t).1 = none → FailsWith (encNum reg cc n t) ⟨[], .typeNotFound (findSingle reg t).1⟩) ∧
    (NumberType reg (findSingle reg t).1 → FailsWith (encNum reg cc n t) ⟨[], .numberOutOfRange (findSingle reg t).1⟩) ∧
    ((∃ d, reg.resolve (findSingle reg t).1 = some d ∧ d ≠ .primitive .char) → ¬ NumberType reg (findSingle reg t).1 → FailsWith (encNum reg cc n t) ⟨[], .wrongShape (findSingle reg t).1⟩) := by
  have hu : ∀ (u : Id) k, Fails (encUintK u k n) → FailsWith (encUintK u k n) ⟨[], .numberOutOfRange u⟩ := by
    intro u k h; unfold encUintK at h ⊢
    split at h
    · exact (okay_not_fails (okay_write _) h).elim
    · rw [if_neg ‹_›]; exact failsWith_fail _
  have hi : ∀ (u : Id) k, Fails (encIntK u k n) → FailsWith (encIntK u k n) ⟨[], .numberOutOfRange u⟩ := by
    intro u k h; unfold encIntK at h ⊢
    split at h
    · exact (okay_not_fails (okay_write _) h).elim
    · rw [if_neg ‹_›]; exact failsWith_fail _
  have hc : ∀ (u : Id) k, Fails (encCompactK u k n) → FailsWith (encCompactK u k n) ⟨[], .numberOutOfRange u⟩ := by
    intro u k h; unfold encCompactK at h ⊢
    split at h
    · exact (okay_not_fails (okay_write _) h).elim
    · rw [if_neg ‹_›]; exact failsWith_fail _
  unfold encNum at hf ⊢
  dsimp only at hf ⊢
  generalize (findSingle reg t).1 = u at *
  refine ⟨?_, ?_, ?_⟩
  · intro h; rw [h]; exact failsWith_fail _
  · rintro (⟨p, h, k, hp | hp⟩ | ⟨w, y, p, k, h, hw, hy, hp⟩)
    · rw [h] at hf ⊢
      cases hp <;> exact hu _ _ hf
    · rw [h] at hf ⊢
      cases hp <;> exact hi _ _ hf
    · rw [h] at hf ⊢
      simp only [findSingle_iff.2 hw, hy] at hf ⊢
      cases hp <;> exact hc _ _ hf
  · rintro ⟨d, h, hch⟩ hn
    rw [h]
    cases d with
    | primitive p =>
      cases p <;> first
        | exact failsWith_fail _
        | exact (hn (.inl ⟨_, h, _, .inl .u8⟩)).elim
        | exact (hn (.inl ⟨_, h, _, .inl .u16⟩)).elim
        | exact (hn (.inl ⟨_, h, _, .inl .u32⟩)).elim
        | exact (hn (.inl ⟨_, h, _, .inl .u64⟩)).elim
        | exact (hn (.inl ⟨_, h, _, .inl .u128⟩)).elim
        | exact (hn (.inl ⟨_, h, _, .inr .i8⟩)).elim
        | exact (hn (.inl ⟨_, h, _, .inr .i16⟩)).elim
        | exact (hn (.inl ⟨_, h, _, .inr .i32⟩)).elim
        | exact (hn (.inl ⟨_, h, _, .inr .i64⟩)).elim
        | exact (hn (.inl ⟨_, h, _, .inr .i128⟩)).elim
        | exact (hch rfl).elim
    | compact w =>
      have hw : Innermost reg w _ := findSingle_innermost reg w
      simp only
      split <;> first
        | exact failsWith_fail _
        | exact (hn (.inr ⟨_, _, _, _, h, hw, ‹_›, .u8⟩)).elim
        | exact (hn (.inr ⟨_, _, _, _, h, hw, ‹_›, .u16⟩)).elim
        | exact (hn (.inr ⟨_, _, _, _, h, hw, ‹_›, .u32⟩)).elim
        | exact (hn (.inr ⟨_, _, _, _, h, hw, ‹_›, .u64⟩)).elim
        | exact (hn (.inr ⟨_, _, _, _, h, hw, ‹_›, .u128⟩)).elim
    | _ => exact failsWith_fail _

theorem number_num {v : Value Γ} (hv : IsNumeric v) (reg : Reg Id) (cc : Bool) (t : Id) : ∃ cc' n, v.encode reg cc t = encNum reg cc' n t := by
  rcases v with ⟨d, x⟩
  rcases hv with ⟨n, hv⟩ | ⟨n, hv⟩ | ⟨n, hv⟩ <;> · simp only [Value.value] at hv; subst hv; rw [enc_prim, encPrimitive]; exact ⟨_, _, rfl⟩

/-- C51: a number that does not encode at a type: the type is not there, or the number is out of its range, or it is not a type for numbers; and the error says
which type that is, after all wrappers have been taken off. (The type `char` is left out.) -/
theorem C51_number (reg : Reg Id) (cc : Bool) (v : Value Γ) (hv : IsNumeric v) (t u : Id) (hu : Innermost reg t u) (hf : Fails (v.encode reg cc t)) :
    (reg.resolve u = none → FailsWith (v.encode reg cc t) ⟨[], .typeNotFound u⟩) ∧
    (NumberType reg u → FailsWith (v.encode reg cc t) ⟨[], .numberOutOfRange u⟩) ∧
    ((∃ d, reg.resolve u = some d ∧ d ≠ .primitive .char) → ¬ NumberType reg u → FailsWith (v.encode reg cc t) ⟨[], .wrongShape u⟩) := by
  obtain ⟨cc', n, h⟩ := number_num hv reg cc t
  rw [h] at hf ⊢
  have := failsWith_num hf
  rwa [findSingle_iff.2 hu] at this

/-- C51: likewise for booleans, strings and bit sequences. -/
theorem C51_atom (reg : Reg Id) (cc : Bool) (v : Value Γ) (hv : (∃ b, v.value = .primitive (.bool b)) ∨ (∃ s, v.value = .primitive (.string s)) ∨ ∃ b, v.value = .bitSequence b)
    (t u : Id) (hu : Innermost reg t u) (hf : Fails (v.encode reg cc t)) :
    FailsWith (v.encode reg cc t) ⟨[], if (reg.resolve u).isSome then .wrongShape u else .typeNotFound u⟩ := by
  rcases v with ⟨d, x⟩
  rcases hv with ⟨b, hv⟩ | ⟨b, hv⟩ | ⟨b, hv⟩
  all_goals
    simp only [Value.value] at hv
    subst hv
  · rw [enc_prim, encPrimitive] at hf ⊢
    unfold encBool at hf ⊢
    rw [findSingle_iff.2 hu] at hf ⊢
    dsimp only at hf ⊢
    split at hf
    · exact (okay_not_fails (okay_write _) hf).elim
    · rename_i h; rw [h]; exact failsWith_fail _
    · rename_i d _ h
      rw [h]
      cases d <;> exact failsWith_fail _
  · rw [enc_prim, encPrimitive] at hf ⊢
    unfold encStr at hf ⊢
    rw [findSingle_iff.2 hu] at hf ⊢
    dsimp only at hf ⊢
    split at hf
    · exact (okay_not_fails (okay_write _) hf).elim
    · rename_i h; rw [h]; exact failsWith_fail _
    · rename_i d _ h
      rw [h]
      cases d <;> exact failsWith_fail _
  · rw [enc_bits] at hf ⊢
    unfold encBits at hf ⊢
    rw [findSingle_iff.2 hu] at hf ⊢
    dsimp only at hf ⊢
    split at hf
    · exact (okay_not_fails (okay_write _) hf).elim
    · rename_i h; rw [h]; exact failsWith_fail _
    · rename_i d _ h
      rw [h]
      cases d <;> first | exact failsWith_fail _ | (rename_i hn; exact (hn _ _ rfl).elim)

/-- C51: a variant at a type that is not an enum. -/
theorem C51_not_enum (reg : Reg Id) (cc : Bool) (n : Str) (c : Composite Γ) (x : Γ) (t u : Id) (hu : Innermost reg t u) (hr : ∀ ds, reg.resolve u ≠ some (.variant ds)) :
    FailsWith ((Value.mk (.variant (.mk n c)) x).encode reg cc t) ⟨[], if (reg.resolve u).isSome then .wrongShape u else .typeNotFound u⟩ := by
  rw [enc_variant]; unfold encVariant
  rw [findSingle_iff.2 hu]
  split
  · exact (hr _ ‹_›).elim
  · rename_i h; rw [h]; exact failsWith_fail _
  · rename_i h; rw [h]; exact failsWith_fail _

/-- C51: a composite with several values (or none) at a type for single things: primitive types, enums and `Compact`. -/
theorem C51_not_composite (reg : Reg Id) (cc : Bool) (c : Composite Γ) (x : Γ) (hl : c.vals.length ≠ 1) (t : Id) (hr : reg.resolve t = none ∨ ∃ d, reg.resolve t = some d ∧ IsSimple d) :
    FailsWith ((Value.mk (.composite c) x).encode reg cc t) ⟨[], .wrongShape t⟩ := by
  have hlen : (c.encChildren reg cc).length = c.vals.length := children_len c
  rw [enc_composite]
  refine failsWith_composite_done (append_children reg cc _) ?_ ?_ (fun k hk => by rw [hk] at hlen; simp at hlen; omega)
  · intro w hs
    rcases hr with hr | ⟨d, hr, hd⟩
    · cases hs with
      | composite h => rw [hr] at h; cases h
      | tuple h => rw [hr] at h; cases h
      | array h => rw [hr] at h; cases h
    · cases hs with
      | composite h => rw [hr] at h; cases h; exact hd
      | tuple h => rw [hr] at h; cases h; exact hd
      | array h => rw [hr] at h; cases h; exact hd
  · have hk : ∀ k, c.encChildren reg cc ≠ [k] := by intro k hk; rw [hk] at hlen; simp at hlen; omega
    unfold doEncodeComposite
    rcases hr with hr | ⟨d, hr, hd⟩
    · rw [hr]; simp only
      exact failsWith_fail _
    · rw [hr]
      cases d <;> first | exact hd.elim | skip
      all_goals
        simp only
        exact failsWith_fail _

/-- C51: for several values at a wrapper `struct T(U)` or `(U,)` of anything that is no struct or tuple, the error is always that the shape is wrong, even though
values are accepted there that fit the type in the wrapper: where in the value the problem is, is not reported. -/
theorem C51_wrapper (reg : Reg Id) (cc : Bool) (c : Composite Γ) (x : Γ) (hl : c.vals.length ≠ 1) (t u : Id) (d : TypeDef Id) (hw : ∃ u', Wraps reg t u') (hu : Unwrapped reg t u)
    (hr : reg.resolve u = some d) (hd : (∀ fs, d ≠ .composite fs) ∧ ∀ ts, d ≠ .tuple ts) (hf : Fails ((Value.mk (.composite c) x).encode reg cc t)) :
    FailsWith ((Value.mk (.composite c) x).encode reg cc t) ⟨[], .wrongShape u⟩ := by
  have hlen : (c.encChildren reg cc).length = c.vals.length := children_len c
  have hk : ∀ k, c.encChildren reg cc ≠ [k] := by intro k hk; rw [hk] at hlen; simp at hlen; omega
  rw [enc_composite] at hf ⊢
  refine failsWith_composite (append_children reg cc _) ?_ hf
  have key : FailsWith (encCompositeAsType reg (c.encChildren reg cc) t) ⟨[], .wrongShape u⟩ := by
    unfold encCompositeAsType
    rw [unwrapped_skip hu, hr]
    cases d with
    | composite fs => exact (hd.1 fs rfl).elim
    | tuple ts => exact (hd.2 ts rfl).elim
    | _ =>
      simp only
      exact failsWith_fail _
  unfold doEncodeComposite
  obtain ⟨u', hw⟩ := hw
  cases hw with
  | composite h => rw [h]; exact key
  | tuple h => rw [h]; exact key

/-- C51: a 256 bit number is encoded as its 32 bytes. When structs and tuples of one entry have been taken off the type, either it is not there; or it is an array of another length; or an array of 32 or
a sequence, and then the error is that of the first byte that does not encode as a number, under its index; or it is something else. -/
theorem C51_256 (reg : Reg Id) (cc : Bool) (p : Primitive) (b : Bytes32) (hp : p = .u256 b ∨ p = .i256 b) (x : Γ) (t u : Id) (hu : Bared reg t u) :
    (reg.resolve u = none → FailsWith ((Value.mk (.primitive p) x).encode reg cc t) ⟨[], .typeNotFound u⟩) ∧
    (∀ w k, reg.resolve u = some (.array w k) → k ≠ 32 → FailsWith ((Value.mk (.primitive p) x).encode reg cc t) ⟨[], .wrongLength 32 k⟩) ∧
    (∀ w, reg.resolve u = some (.array w 32) ∨ reg.resolve u = some (.sequence w) → ∀ i e, FirstFailing reg cc (List.replicate 32 w) (b.bytes.map byteValue) i e →
      FailsWith ((Value.mk (.primitive p) x).encode reg cc t) (e.under (.idx i))) ∧
    (∀ d, reg.resolve u = some d → (∀ w k, d ≠ .array w k) → (∀ w, d ≠ .sequence w) → FailsWith ((Value.mk (.primitive p) x).encode reg cc t) ⟨[], .wrongShape u⟩) := by
  have he : (Value.mk (.primitive p) x).encode reg cc t = encBytesN reg b.bytes (reg.rank t + 1) t := by
    rcases hp with rfl | rfl <;> rw [enc_prim] <;> rfl
  rw [he]
  have hn : ∃ n, encBytesN reg b.bytes (reg.rank t + 1) t = encBytesN reg b.bytes (n + 1) u := by
    suffices h : ∀ n, reg.rank t < n → ∃ m, encBytesN reg b.bytes n t = encBytesN reg b.bytes (m + 1) u from h _ (Nat.lt_succ_self _)
    clear he
    induction hu with
    | done h => intro n hn; exact ⟨n - 1, by rw [Nat.sub_add_cancel (by omega)]⟩
    | @struct t f u hr _ ih =>
      intro n hn
      obtain ⟨m, rfl⟩ : ∃ m, n = m + 1 := ⟨n - 1, by omega⟩
      have := reg.rank_lt t _ f.id hr (by simp [TypeDef.inline])
      obtain ⟨k, hk⟩ := ih m (by omega)
      refine ⟨k, ?_⟩
      rw [← hk, encBytesN, hr]
    | @tuple t f u hr _ ih =>
      intro n hn
      obtain ⟨m, rfl⟩ : ∃ m, n = m + 1 := ⟨n - 1, by omega⟩
      have := reg.rank_lt t _ f hr (by simp [TypeDef.inline])
      obtain ⟨k, hk⟩ := ih m (by omega)
      refine ⟨k, ?_⟩
      rw [← hk, encBytesN, hr]
  obtain ⟨n, hn⟩ := hn
  rw [hn]
  have hnp := bared_end hu
  have hst : List.Forall₂ (Stands reg cc) (b.bytes.map (fun c => ⟨none, encNum reg false c.toNat, bitOf (byteValue c)⟩)) (b.bytes.map byteValue) := by
    generalize b.bytes = bs
    induction bs with
    | nil => exact .nil
    | cons c bs ih => exact .cons ⟨funext fun t => (enc_prim reg cc (.u128 ⟨c.toNat, Nat.lt_trans c.toNat_lt (by decide)⟩) () t).symm, rfl⟩ ih
  have hit : ∀ w, encItems w false 0 (b.bytes.map (fun c => ⟨none, encNum reg false c.toNat, bitOf (byteValue c)⟩)) = encItems w false 0 (byteChildren reg b.bytes) := by
    intro w
    unfold byteChildren
    generalize b.bytes = bs
    generalize 0 = k
    induction bs generalizing k with
    | nil => rfl
    | cons c bs ih =>
      simp only [List.map_cons, encItems]
      rw [ih]
  have hlen : (b.bytes.map byteValue).length = 32 := by simp [b.len]
  refine ⟨fun hr => ?_, fun w k hr hk => ?_, fun w hr i e hf => ?_, fun d hr h1 h2 => ?_⟩
  · rw [encBytesN, hr]; exact failsWith_fail _
  · rw [encBytesN, hr]; dsimp only; rw [if_pos (by rw [b.len]; exact fun h => hk h.symm), b.len]; exact failsWith_fail _
  · rw [← hlen] at hf
    obtain ⟨c, -, h⟩ := firstFailing_items (nm := false) hst hf
    rw [hit] at h
    rcases hr with hr | hr
    · rw [encBytesN, hr]; dsimp only; rw [if_neg (by rw [b.len]; simp)]; exact h
    · rw [encBytesN, hr]; exact failsWith_seq_right (fun _ => rfl) h
  · rw [encBytesN, hr]
    cases d with
    | array w k => exact (h1 w k rfl).elim
    | sequence w => exact (h2 w rfl).elim
    | composite fs =>
      match fs, hr with
      | [], hr => exact failsWith_fail _
      | [f], hr => exact (hnp.1 f hr).elim
      | _ :: _ :: _, hr => exact failsWith_fail _
    | tuple fs =>
      match fs, hr with
      | [], hr => exact failsWith_fail _
      | [f], hr => exact (hnp.2 f hr).elim
      | _ :: _ :: _, hr => exact failsWith_fail _
    | _ => exact failsWith_fail _

/-- C51: such types, and what 256 bit numbers give there: `struct Y(Vec<Vec<u8>>)` takes no bytes as items. -/
example (b : Bytes32) : Bared exReg 20 18 ∧ FailsWith ((Value.mk (.primitive (.u256 b)) ()).encode exReg true 14) ⟨[], .wrongShape 0⟩ := by
  refine ⟨.struct (f := ⟨none, 19⟩) rfl (.struct (f := ⟨none, 18⟩) rfl (.done ⟨nofun, nofun⟩)), ?_⟩
  exact (C51_256 exReg true _ b (.inl rfl) () 14 0 (.struct (f := ⟨none, 0⟩) rfl (.done ⟨nofun, nofun⟩))).2.2.2 _ rfl nofun nofun

/-- C51: a composite at a bit sequence type: the error is a message of the crate about the first value that is no bit, always under its index. -/
theorem C51_bits (reg : Reg Id) (cc : Bool) (c : Composite Γ) (x : Γ) (t : Id) (s : BitStore) (o : BitOrder) (ht : reg.resolve t = some (.bitSequence s o))
    (h1 : ∀ v, c.vals = [v] → Fails (v.encode reg cc t)) (vs₁ vs₂ : List (Value Γ)) (v : Value Γ) (hc : c.vals = vs₁ ++ v :: vs₂)
    (hb : ∀ w ∈ vs₁, ∃ b, IsBit w b) (hv : ∀ b, ¬ IsBit v b) :
    FailsWith ((Value.mk (.composite c) x).encode reg cc t) ⟨[.idx vs₁.length], .custom⟩ := by
  have hs : ∀ u, ¬ SingleEntry reg t u := by rintro u (h | h | h) <;> rw [ht] at h <;> cases h
  have h1' : ∀ k, c.encChildren reg cc = [k] → Fails (k.enc t) := by
    intro k hk
    obtain ⟨v, hv, he⟩ := single_children hk
    rw [he]; exact h1 v hv
  rw [enc_composite]
  refine failsWith_composite_done (append_children reg cc _) hs ?_ h1'
  unfold doEncodeComposite
  rw [ht]; simp only
  have key : ∀ (cs : List (Child Id)) (vs vs₁ : List (Value Γ)) k, List.Forall₂ (Stands reg cc) cs vs → vs = vs₁ ++ v :: vs₂ → (∀ w ∈ vs₁, ∃ b, IsBit w b) →
      encBools k cs = .error ⟨[.idx (k + vs₁.length)], .custom⟩ := by
    intro cs vs vs₁
    induction vs₁ generalizing cs vs with
    | nil =>
      intro k h e _
      subst e
      cases h with
      | cons h _ =>
        rw [encBools, h.2]
        cases hbv : bitOf v with
        | none => rfl
        | some b => exact (hv b (bitOf_iff.1 hbv)).elim
    | cons w vs₁ ih =>
      intro k h e hb
      subst e
      cases h with
      | cons h h' =>
        obtain ⟨b, hb'⟩ := hb w (by simp)
        rw [encBools, h.2, bitOf_iff.2 hb']
        dsimp only
        rw [ih _ _ (k + 1) h' rfl (fun w hw => hb w (by simp [hw]))]
        simp only [List.length_cons, show k + 1 + vs₁.length = k + (vs₁.length + 1) by omega]
  rw [key _ _ vs₁ 0 (children_cases reg cc c) hc hb, Nat.zero_add]
  exact fun out => ⟨out, rfl⟩

/-- C51: `(1, true, 2, 'a')` as bits. -/
example : FailsWith ((Value.unnamedComposite [exU 1, .bool true, exU 2, .char 'a']).encode exReg true 9) ⟨[.idx 2], .custom⟩ := fun out => ⟨out, rfl⟩

/-- C51 is about something: the values `(1, (2, 300))` at `{ a: u8, b: Vec<u8> }`, by name. -/
example : FailsWith ((Value.namedComposite [(['b'], .unnamedComposite [exU 2, exU 300]), (['a'], exU 1)]).encode exReg true 3) ⟨[.field ['b'], .idx 1], .numberOutOfRange 0⟩ :=
  fun out => ⟨_, rfl⟩

/-- C51: a missing field, and one that is to be blamed before it. -/
example : FailsWith ((Value.namedComposite [(['a'], exU 1), (['c'], exU 1)]).encode exReg true 3) ⟨[], .cannotFindField ['b']⟩ ∧
    FailsWith ((Value.namedComposite [(['a'], .bool true), (['c'], exU 1)]).encode exReg true 3) ⟨[.field ['a']], .wrongShape 0⟩ :=
  ⟨fun out => ⟨_, rfl⟩, fun out => ⟨_, rfl⟩⟩

/-- C51: lists of values where the second fails meet the condition. -/
example : FirstFailing exReg true [0, 0, 0] [exU 7, exU 300, .bool true] 1 ⟨[], .numberOutOfRange 0⟩ ∧ Entries exReg 8 [0, 0, 0] := by
  have h1 : Okay ((exU 7).encode exReg true 0) [7] := fun out => rfl
  have h2 : FailsWith ((exU 300).encode exReg true 0) ⟨[], .numberOutOfRange 0⟩ := fun out => ⟨out, rfl⟩
  exact ⟨⟨[0], 0, [0], [exU 7], exU 300, [.bool true], _, rfl, rfl, rfl, .cons h1 .nil, h2⟩, .array (n := 3) rfl (by decide)⟩

/-- C51: one value that fails in a sequence and by itself: the error is the first one. -/
example : FailsWith ((Value.unnamedComposite [exU 300]).encode exReg true 2) ⟨[.idx 0], .numberOutOfRange 0⟩ ∧ exReg.resolve 2 = some (.sequence 0) ∧
    FailsWith ((exU 300).encode exReg true 2) ⟨[], .wrongShape 2⟩ := ⟨fun out => ⟨_, rfl⟩, rfl, fun out => ⟨_, rfl⟩⟩

end SV
