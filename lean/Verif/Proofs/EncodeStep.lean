import Verif.Spec.EncodeStep
import Verif.Proofs.Emit
/-
The encoder satisfies its rules.
-/
namespace SV

variable {Id Γ : Type} {reg : Reg Id} {cc : Bool}

/-- What the encoder does. -/
def encRel (reg : Reg Id) (cc : Bool) : EncRel Id Γ := fun v t bs => Okay (v.encode reg cc t) bs

theorem allBy_enc {ts : List Id} {vs : List (Value Γ)} {bs} : EncAll reg cc ts vs bs ↔ AllBy (encRel reg cc) ts vs bs := by
  constructor
  · intro h; induction h with
    | nil => exact .nil
    | cons h _ ih => exact .cons h ih
  · intro h; induction h with
    | nil => exact .nil
    | cons h _ ih => exact .cons h ih

theorem namedBy_enc {l : List (Str × Value Γ)} {fs : List (Field Id)} {bs} :
    Okay (encByName (l.map (childNamed reg cc)) fs) bs ↔ NamedBy (encRel reg cc) l fs bs := by
  have ha := append_fields reg cc l
  induction fs generalizing bs with
  | nil =>
    rw [encByName, okay_done_iff]
    constructor
    · rintro rfl; exact .nil
    · intro h; cases h; rfl
  | cons f fs ih =>
    rw [encByName]
    split
    · rename_i hf
      constructor
      · intro ho; exact (okay_not_fails ho (fails_fail _)).elim
      · intro h
        cases h with
        | cons h1 _ _ => rw [find_last.2 ⟨_, h1, rfl⟩] at hf; cases hf
    · rename_i c hf
      obtain ⟨v, hv, rfl⟩ := find_last.1 hf
      rw [show (childNamed reg cc (f.name.getD [], v)).enc f.id = v.encode reg cc f.id from rfl,
        okay_seq_iff (append_mapErr (append_value reg cc v f.id)) (append_byName ha _)]
      constructor
      · rintro ⟨x, y, h3, h4, rfl⟩
        rw [okay_mapErr_iff (append_value reg cc v f.id)] at h3
        exact .cons hv h3 (ih.1 h4)
      · intro h
        cases h with
        | cons h1 h2 h3 =>
          have := hf.symm.trans (find_last.2 ⟨_, h1, rfl⟩)
          rw [Option.some.injEq] at this
          have he3 : v.encode reg cc = _ := congrArg Child.enc this
          refine ⟨_, _, okay_mapErr (f := _) (a := v.encode reg cc f.id) ?_, ih.2 h3, rfl⟩
          rw [he3]
          exact h2

theorem fieldsBy_enc {c : Composite Γ} {fs : List (Field Id)} {bs} :
    Okay (encFieldsTo (c.encChildren reg cc) fs) bs ↔ FieldsBy (encRel reg cc) c fs bs := by
  have hc := children_cases reg cc c
  by_cases ho : (∃ vs, c = .unnamed vs) ∨ c = .named [] ∨ ∀ f ∈ fs, f.name = none
  · have hn : (∀ k ∈ c.encChildren reg cc, k.name = none) ∨ ∀ f ∈ fs, f.name = none := by
      rcases ho with ⟨vs, rfl⟩ | rfl | h
      · exact .inl (unnamed_none reg cc vs)
      · refine .inl ?_; rw [Composite.encChildren, encNamed]; intro k hk; cases hk
      · exact .inr h
    rw [okay_fieldsTo_order hc hn, allBy_enc]
    constructor
    · exact .byOrder ho
    · intro h
      cases h with
      | byOrder _ h => exact h
      | byName hl hf _ =>
        rcases ho with ⟨vs, h⟩ | h | h
        · cases h
        · cases h; exact (hl rfl).elim
        · obtain ⟨f, hf, hne⟩ := hf; exact (hne (h f hf)).elim
  · obtain ⟨h1, h2⟩ := not_or.1 ho
    obtain ⟨h2, h3⟩ := not_or.1 h2
    cases c with
    | unnamed vs => exact (h1 ⟨vs, rfl⟩).elim
    | named l =>
      have hl : l ≠ [] := fun e => h2 (by rw [e])
      have hf : ∃ f ∈ fs, f.name ≠ none := Classical.byContradiction fun hn => h3 fun f hf => Classical.byContradiction fun hne => hn ⟨f, hf, hne⟩
      rw [Composite.encChildren, encNamed_eq]
      unfold encFieldsTo
      rw [if_pos, namedBy_enc]
      · constructor
        · exact .byName hl hf
        · intro h
          cases h with
          | byName _ _ h => exact h
          | byOrder h _ => exact (ho h).elim
      · rw [Bool.and_eq_true, List.any_eq_true, List.any_eq_true]
        obtain ⟨f, hf, hne⟩ := hf
        refine ⟨⟨f, hf, by cases h : f.name with | none => exact (hne h).elim | some _ => rfl⟩, ?_⟩
        cases l with
        | nil => exact (hl rfl).elim
        | cons p l => exact ⟨_, List.mem_cons_self .., rfl⟩

theorem not_structLike {w : Id} {d : TypeDef Id} (h : reg.resolve w = some d) (h1 : ∀ fs, d ≠ .composite fs) (h2 : ∀ ts, d ≠ .tuple ts) : ¬ StructLike reg w := by
  rintro (⟨fs, h'⟩ | ⟨ts, h'⟩)
  · rw [h] at h'; cases h'; exact h1 _ rfl
  · rw [h] at h'; cases h'; exact h2 _ rfl

/-- The only child of the encoder is the only value. -/
theorem one_child {c : Composite Γ} {k : Child Id} (h : c.encChildren reg cc = [k]) : ∃ v, c.vals = [v] ∧ k.enc = v.encode reg cc := by
  have := children_cases reg cc c
  rw [h] at this
  generalize c.vals = vs at this
  cases this with
  | cons h1 h2 => cases h2; exact ⟨_, rfl, h1.1⟩

theorem one_value {c : Composite Γ} {v : Value Γ} (h : c.vals = [v]) : ∃ k, c.encChildren reg cc = [k] ∧ k.enc = v.encode reg cc := by
  have := children_cases reg cc c
  rw [h] at this
  generalize c.encChildren reg cc = cs at this
  cases this with
  | cons h1 h2 => cases h2; exact ⟨_, rfl, h1.1⟩

theorem vals_length (c : Composite Γ) : (c.encChildren reg cc).length = c.vals.length := forall₂_length (children_cases reg cc c)

/-- Whether there is one value without a name. -/
theorem one_unnamed {c : Composite Γ} {k : Child Id} (h : c.encChildren reg cc = [k]) : (c.encChildren reg cc).any (fun c => c.name.isSome) = false ↔ ∃ v, c = .unnamed [v] := by
  obtain ⟨v, h1, -⟩ := one_child h
  cases c with
  | unnamed vs =>
    rw [Composite.vals] at h1; subst h1
    rw [Composite.encChildren, encUnnamed_eq]
    exact ⟨fun _ => ⟨v, rfl⟩, fun _ => rfl⟩
  | named l =>
    match l, h1 with
    | [(n, w)], _ =>
      rw [Composite.encChildren, encNamed_eq]
      constructor
      · intro h; cases h
      · rintro ⟨v, h⟩; cases h

theorem asType_enc {c : Composite Γ} {t : Id} (ht : StructLike reg t) {bs} :
    Okay (encCompositeAsType reg (c.encChildren reg cc) t) bs ↔ DirectBy reg (encRel reg cc) c t bs := by
  have hu := skip_unwrapped reg t
  have hc := children_cases reg cc c
  -- from the rules, the types are determined
  constructor
  · intro ho
    unfold encCompositeAsType at ho
    split at ho
    · exact (okay_fail_iff.1 ho).elim
    · rename_i fs hf
      split at ho
      · rename_i k hn hk
        obtain ⟨v, h1, h2⟩ := one_child hk
        obtain ⟨v', rfl⟩ := (one_unnamed hk).1 hn
        rw [Composite.vals] at h1; cases h1
        rw [h2] at ho
        exact .inStruct ht hu hf rfl ho
      · rename_i hno
        refine .struct ht hu hf ?_ (fieldsBy_enc.1 ho)
        rintro v rfl
        rw [Composite.encChildren, encUnnamed_eq] at hno
        exact hno _ rfl rfl
    · rename_i ts hf
      split at ho
      · rename_i k hk
        obtain ⟨v, h1, h2⟩ := one_child hk
        rw [h2] at ho
        exact .inTuple ht hu hf h1 ho
      · rename_i hno
        rw [okay_fieldsTo_order hc (.inr (by intro f hm; simp only [List.mem_map] at hm; obtain ⟨a, -, rfl⟩ := hm; rfl)), List.map_map] at ho
        rw [show ((fun f : Field Id => f.id) ∘ fun t => ⟨none, t⟩) = id from rfl, List.map_id] at ho
        refine .tuple ht hu hf ?_ (allBy_enc.1 ho)
        intro h1
        rw [← vals_length (reg := reg) (cc := cc)] at h1
        obtain ⟨k, hk⟩ := List.length_eq_one_iff.1 h1
        exact hno k hk
    · rename_i d hf h1 h2
      split at ho
      · rename_i k hk
        obtain ⟨v, h3, h4⟩ := one_child hk
        rw [h4] at ho
        exact .inWrapper ht hu h2 (not_structLike h2 (fun fs e => by subst e; exact hf _ rfl) (fun ts e => by subst e; exact h1 _ rfl)) h3 ho
      · exact (okay_fail_iff.1 ho).elim
  · intro h
    unfold encCompositeAsType
    cases h with
    | struct _ hu hf hne h =>
      rw [unwrapped_skip hu, hf]
      simp only
      split
      · rename_i k hn hk
        obtain ⟨v, hv⟩ := (one_unnamed hk).1 hn
        exact (hne v hv).elim
      · exact fieldsBy_enc.2 h
    | inStruct _ hu hf hv h =>
      subst hv
      rw [unwrapped_skip hu, hf, Composite.encChildren, encUnnamed_eq]
      exact h
    | tuple _ hu hf hl h =>
      rw [unwrapped_skip hu, hf]
      simp only
      split
      · rename_i k hk
        obtain ⟨v, h1, -⟩ := one_child hk
        rw [h1] at hl; exact (hl rfl).elim
      · rw [okay_fieldsTo_order hc (.inr (by intro f hm; simp only [List.mem_map] at hm; obtain ⟨a, -, rfl⟩ := hm; rfl)), List.map_map]
        rw [show ((fun f : Field Id => f.id) ∘ fun t => ⟨none, t⟩) = id from rfl, List.map_id]
        exact allBy_enc.2 h
    | inTuple _ hu hf hv h =>
      obtain ⟨k, hk, hk2⟩ := one_value (reg := reg) (cc := cc) hv
      rw [unwrapped_skip hu, hf, hk]
      simp only
      rw [hk2]; exact h
    | inWrapper _ hu hf hn hv h =>
      obtain ⟨k, hk, hk2⟩ := one_value (reg := reg) (cc := cc) hv
      rw [unwrapped_skip hu, hf, hk]
      split
      · rename_i e; cases e
      · rename_i e; cases e; exact (hn (.inl ⟨_, hf⟩)).elim
      · rename_i e; cases e; exact (hn (.inr ⟨_, hf⟩)).elim
      · simp only; rw [hk2]; exact h
    | sequence hr _ _ => rcases ht with ⟨_, h⟩ | ⟨_, h⟩ <;> · rw [h] at hr; cases hr
    | array hr _ => rcases ht with ⟨_, h⟩ | ⟨_, h⟩ <;> · rw [h] at hr; cases hr
    | bits hr _ _ _ => rcases ht with ⟨_, h⟩ | ⟨_, h⟩ <;> · rw [h] at hr; cases hr
    | other h _ _ _ _ _ => exact (h ht).elim

theorem direct_enc {c : Composite Γ} (hl : c.vals.length < 2 ^ 32) {t : Id} {bs} :
    Okay (doEncodeComposite reg (c.encChildren reg cc) t) bs ↔ DirectBy reg (encRel reg cc) c t bs := by
  have hc := children_cases reg cc c
  have hlen := vals_length (reg := reg) (cc := cc) c
  have hcmp : ∀ p, IsCompact c.vals.length p ↔ p = compactEnc c.vals.length := fun p => isCompact_iff (by omega)
  by_cases hs : StructLike reg t
  · rw [← asType_enc hs]
    unfold doEncodeComposite
    rcases hs with ⟨fs, h⟩ | ⟨ts, h⟩ <;> rw [h]
  · constructor
    · intro ho
      unfold doEncodeComposite at ho
      split at ho
      · rename_i h; exact (hs (.inl ⟨_, h⟩)).elim
      · rename_i h; exact (hs (.inr ⟨_, h⟩)).elim
      · rename_i u hr
        rw [okay_seq_iff (append_write _) (append_items (append_stands hc) _ _ _)] at ho
        obtain ⟨x, y, h1, h2, rfl⟩ := ho
        rw [okay_write_iff, hlen, Nat.mod_eq_of_lt hl] at h1
        rw [okay_items_iff hc, hlen] at h2
        exact .sequence hr ((hcmp x).2 h1) (allBy_enc.1 h2)
      · rename_i u n hr
        split at ho
        · exact (okay_fail_iff.1 ho).elim
        · rename_i hn
          have hn := Decidable.not_not.1 hn
          rw [okay_items_iff hc, hn] at ho
          exact .array hr (allBy_enc.1 ho)
      · rename_i s o hr
        have ho' : Okay (doEncodeComposite reg (c.encChildren reg cc) t) bs := by unfold doEncodeComposite; rw [hr]; exact ho
        obtain ⟨b, hb, rfl⟩ := (okay_do_bits hc hr).1 ho'
        have hbl : b.length = c.vals.length := (forall₂_length hb).symm
        unfold bitsEnc
        rw [Nat.mod_eq_of_lt (by omega)]
        exact .bits hr hb ((isCompact_iff (by omega)).2 rfl) (isBits_encWords True s o b)
      · rename_i h1 h2 h3 h4 h5
        split at ho
        · rename_i k hk
          obtain ⟨v, hv, hv2⟩ := one_child hk
          rw [hv2] at ho
          exact .other hs (fun u h => h3 u h) (fun u n h => h4 u n h) (fun s o h => h5 s o h) hv ho
        · exact (okay_fail_iff.1 ho).elim
    · intro h
      cases h with
      | struct h _ _ _ _ => exact (hs h).elim
      | inStruct h _ _ _ _ => exact (hs h).elim
      | tuple h _ _ _ _ => exact (hs h).elim
      | inTuple h _ _ _ _ => exact (hs h).elim
      | inWrapper h _ _ _ _ _ => exact (hs h).elim
      | sequence hr hp ha =>
        unfold doEncodeComposite
        rw [hr]
        rw [(hcmp _).1 hp]
        refine okay_seq ?_ ((okay_items_iff hc).2 ?_)
        · rw [hlen, Nat.mod_eq_of_lt hl]; exact okay_write _
        · rw [hlen]; exact allBy_enc.2 ha
      | array hr ha =>
        have := encAll_length (allBy_enc.2 ha)
        rw [List.length_replicate] at this
        unfold doEncodeComposite
        rw [hr]
        simp only
        rw [if_neg (by rw [hlen]; exact fun h => h this), okay_items_iff hc, hlen, this]
        exact allBy_enc.2 ha
      | bits hr hb hp hq =>
        have hbl := (forall₂_length hb).symm
        exact (okay_do_bits hc hr).2 ⟨_, hb, bitsEnc_spec hp (by omega) hq⟩
      | other _ h3 h4 h5 hv h =>
        obtain ⟨k, hk, hk2⟩ := one_value (reg := reg) (cc := cc) hv
        unfold doEncodeComposite
        split
        · rename_i h; exact (hs (.inl ⟨_, h⟩)).elim
        · rename_i h; exact (hs (.inr ⟨_, h⟩)).elim
        · rename_i h; exact (h3 _ h).elim
        · rename_i h; exact (h4 _ _ h).elim
        · rename_i h; exact (h5 _ _ h).elim
        · rw [hk]; simp only; rw [hk2]; exact h

theorem bytesBy_enc {u : Id} {l bs : List UInt8} : ∀ {k}, Okay (encItems u false k (byteChildren reg l)) bs ↔ BytesBy reg u l bs := by
  have hk : AppendOnlyAll (byteChildren reg l) := by
    intro c hc t
    simp only [byteChildren, List.mem_map] at hc
    obtain ⟨b, -, rfl⟩ := hc
    exact append_num _ _ _ _
  induction l generalizing bs with
  | nil =>
    intro k
    rw [byteChildren, List.map_nil, encItems, okay_done_iff]
    constructor
    · rintro rfl; exact .nil
    · intro h; cases h; rfl
  | cons b l ih =>
    intro k
    have hk' : AppendOnlyAll (byteChildren reg l) := fun c hc t => hk c (by simp [byteChildren] at hc ⊢; exact .inr hc) t
    rw [show byteChildren reg (b :: l) = ⟨none, encNum reg false b.toNat, none⟩ :: byteChildren reg l from rfl, encItems,
      okay_seq_iff (append_mapErr (append_num _ _ _ _)) (append_items hk' _ _ _)]
    constructor
    · rintro ⟨x, y, h1, h2, rfl⟩
      rw [okay_mapErr_iff (append_num _ _ _ _), okay_num_iff] at h1
      exact .cons (findSingle_innermost reg u) h1 ((ih hk').1 h2)
    · intro h
      cases h with
      | cons hi h1 h2 =>
        refine ⟨_, _, okay_mapErr (okay_num_iff.2 ?_), (ih hk').2 h2, rfl⟩
        rw [findSingle_iff.2 hi]; exact h1

theorem bytes32_enc {b : Bytes32} {bs : List UInt8} : ∀ {n t}, reg.rank t < n → (Okay (encBytesN reg b.bytes n t) bs ↔ Bytes32By reg t b bs) := by
  have hlen := b.len
  intro n
  induction n with
  | zero => intro t h; omega
  | succ n ih =>
    intro t hr
    rw [encBytesN]
    split
    · rename_i u k h
      constructor
      · intro ho
        split at ho
        · exact (okay_fail_iff.1 ho).elim
        · rename_i hk
          have hk := Decidable.not_not.1 hk
          rw [hlen] at hk; subst hk
          exact .array (.done t) h (bytesBy_enc.1 ho)
      · intro hb
        cases hb with
        | array hp hu hb =>
          cases hp with
          | done => rw [h] at hu; cases hu; rw [if_neg (by rw [hlen]; simp)]; exact bytesBy_enc.2 hb
          | composite h' _ => rw [h] at h'; cases h'
          | tuple h' _ => rw [h] at h'; cases h'
        | sequence hp hu _ hb =>
          cases hp with
          | done => rw [h] at hu; cases hu
          | composite h' _ => rw [h] at h'; cases h'
          | tuple h' _ => rw [h] at h'; cases h'
    · rename_i u h
      have hba : AppendOnly (encItems u false 0 (byteChildren reg b.bytes)) := append_items (by
        intro c hc t
        simp only [byteChildren, List.mem_map] at hc
        obtain ⟨b, -, rfl⟩ := hc
        exact append_num _ _ _ _) _ _ _
      rw [okay_seq_iff (append_write _) hba]
      constructor
      · rintro ⟨x, y, h1, h2, rfl⟩
        rw [okay_write_iff, hlen] at h1
        exact .sequence (.done t) h ((isCompact_iff (by decide)).2 h1) (bytesBy_enc.1 h2)
      · intro hb
        cases hb with
        | array hp hu hb =>
          cases hp with
          | done => rw [h] at hu; cases hu
          | composite h' _ => rw [h] at h'; cases h'
          | tuple h' _ => rw [h] at h'; cases h'
        | sequence hp hu hc hb =>
          cases hp with
          | done =>
            rw [h] at hu; cases hu
            refine ⟨_, _, ?_, bytesBy_enc.2 hb, rfl⟩
            rw [okay_write_iff, hlen]; exact (isCompact_iff (by decide)).1 hc
          | composite h' _ => rw [h] at h'; cases h'
          | tuple h' _ => rw [h] at h'; cases h'
    · rename_i f h
      have hlt := reg.rank_lt t _ f.id h (by simp [TypeDef.inline])
      rw [ih (by omega)]
      constructor
      · intro hb
        cases hb with
        | array hp hu hb => exact .array (.composite h hp) hu hb
        | sequence hp hu hc hb => exact .sequence (.composite h hp) hu hc hb
      · intro hb
        cases hb with
        | array hp hu hb =>
          cases hp with
          | done => rw [h] at hu; cases hu
          | composite h' hp => rw [h] at h'; cases h'; exact .array hp hu hb
          | tuple h' _ => rw [h] at h'; cases h'
        | sequence hp hu hc hb =>
          cases hp with
          | done => rw [h] at hu; cases hu
          | composite h' hp => rw [h] at h'; cases h'; exact .sequence hp hu hc hb
          | tuple h' _ => rw [h] at h'; cases h'
    · rename_i u h
      have hlt := reg.rank_lt t _ u h (by simp [TypeDef.inline])
      rw [ih (by omega)]
      constructor
      · intro hb
        cases hb with
        | array hp hu hb => exact .array (.tuple h hp) hu hb
        | sequence hp hu hc hb => exact .sequence (.tuple h hp) hu hc hb
      · intro hb
        cases hb with
        | array hp hu hb =>
          cases hp with
          | done => rw [h] at hu; cases hu
          | composite h' hp => rw [h] at h'; cases h'
          | tuple h' hp => rw [h] at h'; cases h'; exact .array hp hu hb
        | sequence hp hu hc hb =>
          cases hp with
          | done => rw [h] at hu; cases hu
          | composite h' hp => rw [h] at h'; cases h'
          | tuple h' hp => rw [h] at h'; cases h'; exact .sequence hp hu hc hb
    · rename_i h
      rw [okay_fail_iff]
      refine ⟨False.elim, fun hb => ?_⟩
      cases hb with
      | array hp hu hb => cases hp with
        | done => rw [h] at hu; cases hu
        | composite h' hp => rw [h] at h'; cases h'
        | tuple h' hp => rw [h] at h'; cases h'
      | sequence hp hu hc hb => cases hp with
        | done => rw [h] at hu; cases hu
        | composite h' hp => rw [h] at h'; cases h'
        | tuple h' hp => rw [h] at h'; cases h'
    · rename_i d h1 h2 h3 h4 h
      rw [okay_fail_iff]
      refine ⟨False.elim, fun hb => ?_⟩
      cases hb with
      | array hp hu hb => cases hp with
        | done => exact h1 _ _ (Option.some.inj (h.symm.trans hu))
        | composite h' hp => exact h3 _ (Option.some.inj (h.symm.trans h'))
        | tuple h' hp => exact h4 _ (Option.some.inj (h.symm.trans h'))
      | sequence hp hu hc hb => cases hp with
        | done => exact h2 _ (Option.some.inj (h.symm.trans hu))
        | composite h' hp => exact h3 _ (Option.some.inj (h.symm.trans h'))
        | tuple h' hp => exact h4 _ (Option.some.inj (h.symm.trans h'))

theorem sized_len {v : Value Γ} (h : Sized v) {c : Composite Γ} (hc : v.fields? = some c) : c.vals.length < 2 ^ 32 := by
  have := (h.1 v (.self v)).1 c hc
  have e : c.vals.length = c.len := by cases c <;> simp [Composite.vals, Composite.len]
  omega

theorem step_enc {v : Value Γ} (hs : Sized v) {t : Id} {bs} : Okay (v.encode reg cc t) bs ↔ StepBy reg cc (encRel reg cc) v t bs := by
  have hin := findSingle_innermost reg t
  obtain ⟨d, x⟩ := v
  cases d with
  | composite c =>
    have hl : c.vals.length < 2 ^ 32 := sized_len hs rfl
    have ha := append_stands (children_cases reg cc c)
    rw [enc_composite, okay_composite_iff ha]
    have hf : ∀ u, Fails (doEncodeComposite reg (c.encChildren reg cc) u) ↔ ∀ bs, ¬ DirectBy reg (encRel reg cc) c u bs := by
      intro u
      rw [fails_iff (append_doEncode ha reg u)]
      exact forall_congr' fun r => not_congr (direct_enc hl)
    rw [hf, hf, direct_enc hl, direct_enc hl]
    constructor
    · rintro (h | ⟨h1, h | ⟨h2, k, hk, ho⟩⟩)
      · exact .composite h
      · exact .inner h1 hin h
      · obtain ⟨v, hv, hv2⟩ := one_child hk
        rw [hv2] at ho
        exact .alone h1 hin h2 hv ho
    · intro h
      cases h with
      | composite h => exact .inl h
      | inner h1 hi h => rw [findSingle_iff.2 hi]; exact .inr ⟨h1, .inl h⟩
      | alone h1 hi h2 hv h =>
        obtain ⟨k, hk, hk2⟩ := one_value (reg := reg) (cc := cc) hv
        rw [findSingle_iff.2 hi]
        exact .inr ⟨h1, .inr ⟨h2, k, hk, by rw [hk2]; exact h⟩⟩
  | variant w =>
    obtain ⟨n, c⟩ := w
    rw [enc_variant]
    unfold encVariant
    constructor
    · intro ho
      split at ho
      · rename_i ds hr
        split at ho
        · exact (okay_fail_iff.1 ho).elim
        · rename_i d hd
          rw [okay_seq_iff (append_write _) (append_fieldsTo (append_children reg cc c) _)] at ho
          obtain ⟨x, y, h1, h2, rfl⟩ := ho
          rw [okay_write_iff] at h1; subst h1
          obtain ⟨h3, before, after, rfl, h4⟩ := List.find?_eq_some_iff_append.1 hd
          exact .variant hin hr (by simpa using h3) (fun e he => by simpa using h4 e he) (fieldsBy_enc.1 h2)
      · exact (okay_fail_iff.1 ho).elim
      · exact (okay_fail_iff.1 ho).elim
    · intro h
      cases h with
      | @variant _ _ _ _ _ before d after bs hi hr hd hb hf =>
        rw [findSingle_iff.2 hi, hr]
        simp only
        rw [List.find?_eq_some_iff_append.2 ⟨by simpa using hd, before, after, rfl, fun e he => by simpa using hb e he⟩]
        simp only
        exact okay_seq (okay_write [d.index]) (fieldsBy_enc.2 hf)
  | bitSequence b =>
    have hl := hs.2 _ b (.self _) rfl
    rw [enc_bits, okay_bits_iff]
    constructor
    · rintro ⟨s, o, hr, rfl⟩
      unfold bitsEnc
      rw [Nat.mod_eq_of_lt hl]
      exact .bits hin hr ((isCompact_iff (by omega)).2 rfl) (isBits_encWords True s o b)
    · intro h
      cases h with
      | bits hi hr hp hq => exact ⟨_, _, by rw [findSingle_iff.2 hi]; exact hr, bitsEnc_spec hp hl hq⟩
  | primitive p =>
    rw [enc_prim]
    unfold encPrimitive
    cases p with
    | bool b =>
      simp only
      rw [okay_bool_iff]
      constructor
      · rintro ⟨h, rfl⟩; exact .bool hin h
      · intro h; cases h with | bool hi h => exact ⟨by rw [findSingle_iff.2 hi]; exact h, rfl⟩
    | char c =>
      simp only
      rw [okay_num_iff]
      constructor
      · exact .char hin
      · intro h; cases h with | char hi h => rw [findSingle_iff.2 hi]; exact h
    | string s =>
      have hl := (hs.1 _ (.self _)).2 s rfl
      simp only
      rw [okay_str_iff]
      constructor
      · rintro ⟨h, rfl⟩; exact .string hin h ((isCompact_iff (by omega)).2 rfl)
      · intro h
        cases h with
        | string hi h hp => exact ⟨by rw [findSingle_iff.2 hi]; exact h, by rw [(isCompact_iff (by omega)).1 hp]⟩
    | u128 n =>
      simp only
      rw [okay_num_iff]
      constructor
      · exact .u128 hin
      · intro h; cases h with | u128 hi h => rw [findSingle_iff.2 hi]; exact h
    | i128 n =>
      simp only
      rw [okay_num_iff]
      constructor
      · exact .i128 hin
      · intro h; cases h with | i128 hi h => rw [findSingle_iff.2 hi]; exact h
    | u256 b =>
      simp only
      rw [bytes32_enc (Nat.lt_succ_self _)]
      constructor
      · exact .u256
      · intro h; cases h with | u256 h => exact h
    | i256 b =>
      simp only
      rw [bytes32_enc (Nat.lt_succ_self _)]
      constructor
      · exact .i256
      · intro h; cases h with | i256 h => exact h

/-! ### The rules determine the relation -/

variable {E F : EncRel Id Γ}

theorem AllBy.mono {ts : List Id} {vs : List (Value Γ)} (h : ∀ v ∈ vs, ∀ t bs, E v t bs → F v t bs) {bs} (ha : AllBy E ts vs bs) : AllBy F ts vs bs := by
  induction ha with
  | nil => exact .nil
  | cons h1 _ ih => exact .cons (h _ (by simp) _ _ h1) (ih fun v hv => h v (by simp [hv]))

theorem NamedBy.mono {l : List (Str × Value Γ)} (h : ∀ p ∈ l, ∀ t bs, E p.2 t bs → F p.2 t bs) {fs : List (Field Id)} {bs} (ha : NamedBy E l fs bs) : NamedBy F l fs bs := by
  induction ha with
  | nil => exact .nil
  | @cons f fs v _ _ h0 h1 _ ih =>
    refine .cons h0 ?_ ih
    obtain ⟨a, b, rfl, -⟩ := h0
    exact h (f.name.getD [], v) (by simp) _ _ h1

theorem FieldsBy.mono {c : Composite Γ} (h : ∀ v ∈ c.vals, ∀ t bs, E v t bs → F v t bs) {fs : List (Field Id)} {bs} (ha : FieldsBy E c fs bs) : FieldsBy F c fs bs := by
  cases ha with
  | byName h1 h2 h3 => exact .byName h1 h2 (h3.mono fun p hp => h p.2 (by simp only [Composite.vals, List.mem_map]; exact ⟨p, hp, rfl⟩))
  | byOrder h1 h2 => exact .byOrder h1 (h2.mono h)

theorem DirectBy.mono {c : Composite Γ} (h : ∀ v ∈ c.vals, ∀ t bs, E v t bs → F v t bs) {t : Id} {bs} (ha : DirectBy reg E c t bs) : DirectBy reg F c t bs := by
  cases ha with
  | struct h1 h2 h3 h4 h5 => exact .struct h1 h2 h3 h4 (h5.mono h)
  | inStruct h1 h2 h3 h4 h5 => exact .inStruct h1 h2 h3 h4 (h _ (by rw [h4]; simp [Composite.vals]) _ _ h5)
  | tuple h1 h2 h3 h4 h5 => exact .tuple h1 h2 h3 h4 (h5.mono h)
  | inTuple h1 h2 h3 h4 h5 => exact .inTuple h1 h2 h3 h4 (h _ (by rw [h4]; simp) _ _ h5)
  | inWrapper h1 h2 h3 h4 h5 h6 => exact .inWrapper h1 h2 h3 h4 h5 (h _ (by rw [h5]; simp) _ _ h6)
  | sequence h1 h2 h3 => exact .sequence h1 h2 (h3.mono h)
  | array h1 h2 => exact .array h1 (h2.mono h)
  | bits h1 h2 h3 h4 => exact .bits h1 h2 h3 h4
  | other h1 h2 h3 h4 h5 h6 => exact .other h1 h2 h3 h4 h5 (h _ (by rw [h5]; simp) _ _ h6)

theorem StepBy.congr {v : Value Γ} (h : ∀ w ∈ v.children, ∀ t bs, E w t bs ↔ F w t bs) {t : Id} {bs} (hv : StepBy reg cc E v t bs) : StepBy reg cc F v t bs := by
  cases hv with
  | bool h1 h2 => exact .bool h1 h2
  | char h1 h2 => exact .char h1 h2
  | string h1 h2 h3 => exact .string h1 h2 h3
  | u128 h1 h2 => exact .u128 h1 h2
  | i128 h1 h2 => exact .i128 h1 h2
  | u256 h1 => exact .u256 h1
  | i256 h1 => exact .i256 h1
  | bits h1 h2 h3 h4 => exact .bits h1 h2 h3 h4
  | variant h1 h2 h3 h4 h5 =>
    rw [fields_children rfl] at h
    exact .variant h1 h2 h3 h4 (h5.mono fun v hv t bs => (h v hv t bs).1)
  | @composite c _ _ _ h1 =>
    rw [fields_children rfl] at h
    exact .composite (h1.mono fun v hv t bs => (h v hv t bs).1)
  | @inner c _ _ _ _ h1 h2 h3 =>
    rw [fields_children rfl] at h
    exact .inner (fun bs' h' => h1 bs' (h'.mono fun v hv t bs => (h v hv t bs).2)) h2 (h3.mono fun v hv t bs => (h v hv t bs).1)
  | @alone c _ _ _ _ _ h1 h2 h3 h4 h5 =>
    rw [fields_children rfl] at h
    exact .alone (fun bs' h' => h1 bs' (h'.mono fun v hv t bs => (h v hv t bs).2)) h2 (fun bs' h' => h3 bs' (h'.mono fun v hv t bs => (h v hv t bs).2)) h4
      ((h _ (by rw [h4]; simp) _ _).1 h5)

theorem step_unique {E : EncRel Id Γ} (hE : ∀ v t bs, Sized v → (E v t bs ↔ StepBy reg cc E v t bs)) (v : Value Γ) : Sized v → ∀ t bs, E v t bs ↔ Okay (v.encode reg cc t) bs := by
  have key : ∀ v : Value Γ, (∀ w ∈ v.children, Sized w → ∀ t bs, E w t bs ↔ Okay (w.encode reg cc t) bs) → Sized v → ∀ t bs, E v t bs ↔ Okay (v.encode reg cc t) bs := by
    intro v ih hs t bs
    have hw : ∀ w ∈ v.children, ∀ t bs, E w t bs ↔ encRel reg cc w t bs := fun w hw => ih w hw (sized_sub hs hw)
    rw [hE v t bs hs, step_enc hs]
    exact ⟨fun h => h.congr hw, fun h => h.congr fun w h' t bs => (hw w h' t bs).symm⟩
  induction v using Value.ind with
  | named fs x ih =>
    refine key _ ?_
    intro w hw
    rw [fields_children (c := .named fs) rfl, Composite.vals, List.mem_map] at hw
    obtain ⟨p, hp, rfl⟩ := hw
    exact ih p hp
  | unnamed vs x ih =>
    refine key _ ?_
    intro w hw
    rw [fields_children (c := .unnamed vs) rfl] at hw
    exact ih w hw
  | vnamed n fs x ih =>
    refine key _ ?_
    intro w hw
    rw [fields_children (c := .named fs) rfl, Composite.vals, List.mem_map] at hw
    obtain ⟨p, hp, rfl⟩ := hw
    exact ih p hp
  | vunnamed n vs x ih =>
    refine key _ ?_
    intro w hw
    rw [fields_children (c := .unnamed vs) rfl] at hw
    exact ih w hw
  | bits b x => exact key _ (by intro w hw; cases hw)
  | prim p x => exact key _ (by intro w hw; cases hw)

end SV
