import Verif.Proofs.EncodeRules
import Verif.Spec.ExReg
import Verif.Spec.Serde
/-
Properties C31 to C35: the rules of encoding.
-/
namespace SV

variable {Id Γ : Type}

/-- The single value of a composite, if it has one. -/
theorem single_children {reg : Reg Id} {cc : Bool} {c : Composite Γ} {k : Child Id} (h : c.encChildren reg cc = [k]) :
    ∃ v, c.vals = [v] ∧ k.enc = v.encode reg cc := by
  have := children_cases reg cc c
  rw [h] at this
  generalize c.vals = vs at this
  cases this with
  | cons h1 h2 => cases h2; exact ⟨_, rfl, h1.1⟩

theorem single_vals {reg : Reg Id} {cc : Bool} {c : Composite Γ} {v : Value Γ} (h : c.vals = [v]) :
    ∃ k, c.encChildren reg cc = [k] ∧ k.enc = v.encode reg cc := by
  have := children_cases reg cc c
  rw [h] at this
  generalize c.encChildren reg cc = cs at this
  cases this with
  | cons h1 h2 => cases h2; exact ⟨_, rfl, h1.1⟩

theorem children_len {reg : Reg Id} {cc : Bool} (c : Composite Γ) : (c.encChildren reg cc).length = c.vals.length := forall₂_length (children_cases reg cc c)

/-- An unsigned number, for examples. -/
def exU (n : Nat) (h : n < 2 ^ 128 := by decide) : Value Unit := .u128 ⟨n, h⟩

/-! ### C31 -/

/-- C31: for values other than composites and 256 bit numbers, encoding at a type is the same as encoding at the type that it wraps (with any number of
wrappers): same bytes, same errors. -/
theorem C31_atoms (reg : Reg Id) (cc : Bool) (v : Value Γ) (hv : IsAtom v) (t u : Id) (h : SameRepr reg t u) : v.encode reg cc t = v.encode reg cc u :=
  atom_same hv (findSingle_sameRepr h)

/-- C31: for 256 bit numbers, which are encoded as arrays of bytes, this is so for structs and tuples with one field. -/
theorem C31_bytes (reg : Reg Id) (cc : Bool) (b : Bytes32) (x : Γ) (t u : Id)
    (h : (∃ f, reg.resolve t = some (.composite [f]) ∧ f.id = u) ∨ reg.resolve t = some (.tuple [u])) :
    (Value.mk (.primitive (.u256 b)) x).encode reg cc t = (Value.mk (.primitive (.u256 b)) x).encode reg cc u ∧
    (Value.mk (.primitive (.i256 b)) x).encode reg cc t = (Value.mk (.primitive (.i256 b)) x).encode reg cc u := by
  have key : encBytesN reg b.bytes (reg.rank t + 1) t = encBytesN reg b.bytes (reg.rank u + 1) u := by
    rw [encBytesN]
    rcases h with ⟨f, h, rfl⟩ | h
    · have := reg.rank_lt t _ f.id h (by simp [TypeDef.inline])
      rw [h]
      exact encBytesN_stable reg _ _ _ _ this (by omega)
    · have := reg.rank_lt t _ u h (by simp [TypeDef.inline])
      rw [h]
      exact encBytesN_stable reg _ _ _ _ this (by omega)
  simp only [enc_prim, encPrimitive]
  exact ⟨key, key⟩

theorem items_bytes {reg : Reg Id} {cc : Bool} {vs : List (Value Γ)} {bs : List UInt8} (h : vs.map Value.number? = bs.map (fun x => some (x.toNat : Int))) (u : Id) (nm : Bool) :
    ∀ k, encItems u false k (byteChildren reg bs) = encItems u nm k (encUnnamed reg cc vs) := by
  induction bs generalizing vs with
  | nil => cases vs with
    | nil => intro k; simp [byteChildren, encUnnamed, encItems]
    | cons v vs => simp at h
  | cons b bs ih => cases vs with
    | nil => simp at h
    | cons v vs =>
      simp only [List.map_cons, List.cons.injEq] at h
      intro k
      have hv : v.encode reg cc u = encNum reg false b.toNat u := by
        have hn := h.1
        obtain ⟨d, x⟩ := v
        unfold Value.number? at hn
        split at hn
        · next h1 => cases h1; rw [enc_prim, encPrimitive]; simp only [Option.some.injEq] at hn; rw [hn]
        · next h1 => cases h1; rw [enc_prim, encPrimitive]; simp only [Option.some.injEq] at hn; rw [hn]
        · cases hn
      have hi := ih h.2 (k + 1)
      rw [encUnnamed, byteChildren, List.map_cons, encItems, encItems]
      simp only [hv]
      rw [byteChildren] at hi
      rw [hi]

/-- C31: a 256 bit number is encoded like the list of its 32 bytes, at sequences and at arrays (other than those of length one, for which the list has a second chance, at the type of the element): the same
bytes, or the same error. -/
theorem C31_bytes_list (reg : Reg Id) (cc : Bool) (b : Bytes32) (p : Primitive) (hp : p = .u256 b ∨ p = .i256 b) (vs : List (Value Γ)) (x y : Γ)
    (hv : vs.map Value.number? = b.bytes.map (fun x => some (x.toNat : Int))) (t u : Id)
    (ht : reg.resolve t = some (.sequence u) ∨ ∃ n, n ≠ 1 ∧ reg.resolve t = some (.array u n)) :
    (∀ bs, Okay ((Value.mk (.primitive p) x).encode reg cc t) bs ↔ Okay ((Value.mk (.composite (.unnamed vs)) y).encode reg cc t) bs) ∧
    (∀ e, FailsWith ((Value.mk (.primitive p) x).encode reg cc t) e ↔ FailsWith ((Value.mk (.composite (.unnamed vs)) y).encode reg cc t) e) := by
  have hlen : vs.length = 32 := by
    have := congrArg List.length hv
    simp only [List.length_map] at this
    rw [this, b.len]
  have hcl : ((Composite.unnamed vs).encChildren reg cc).length = 32 := by rw [children_len]; exact hlen
  have hdo : encBytesN reg b.bytes (reg.rank t + 1) t = doEncodeComposite reg ((Composite.unnamed vs).encChildren reg cc) t := by
    rw [encBytesN]
    unfold doEncodeComposite
    rcases ht with ht | ⟨n, -, ht⟩
    · rw [Composite.encChildren] at hcl ⊢
      simp only [ht, hcl, b.len]
      rw [items_bytes (cc := cc) hv u true 0]
    · rw [Composite.encChildren] at hcl ⊢
      simp only [ht, hcl, b.len]
      rw [items_bytes (cc := cc) hv u false 0]
  have hprim : (Value.mk (.primitive p) x).encode reg cc t = doEncodeComposite reg ((Composite.unnamed vs).encChildren reg cc) t := by
    rw [enc_prim, ← hdo]
    rcases hp with rfl | rfl <;> rfl
  have happ : AppendOnly (doEncodeComposite reg ((Composite.unnamed vs).encChildren reg cc) t) := by
    rw [← hdo]; exact append_bytes _ _ _ _
  have hsingle : findSingle reg t = (t, false) := by
    apply findSingle_done
    intro w hw
    cases hw with
    | composite h | tuple h | array h =>
      rcases ht with ht | ⟨n, hn, ht⟩
      · rw [ht] at h; cases h
      · rw [ht] at h; cases h <;> exact hn rfl
  have hcomp : ∀ out, (Value.mk (.composite (.unnamed vs)) y).encode reg cc t out = match doEncodeComposite reg ((Composite.unnamed vs).encChildren reg cc) t [] with
      | (.ok (), tmp) => (.ok (), out ++ tmp)
      | (.error e, _) => (.error e, out) := by
    intro out
    rw [enc_composite]
    unfold encComposite
    rw [hsingle]
    have hlast : ∀ e, encLast ((Composite.unnamed vs).encChildren reg cc) t e out = (.error e, out) := by
      intro e
      unfold encLast
      split
      · next hc => rw [hc] at hcl; simp at hcl
      · rfl
    rcases doEncodeComposite reg ((Composite.unnamed vs).encChildren reg cc) t [] with ⟨_ | _, _⟩
    · simp only; exact hlast _
    · rfl
  rw [hprim]
  unfold Okay FailsWith
  simp only [hcomp]
  rcases hr : doEncodeComposite reg ((Composite.unnamed vs).encChildren reg cc) t [] with ⟨_ | _, o⟩
  · constructor
    · intro bs
      constructor
      · intro h; have := h []; rw [hr] at this; cases this
      · intro h; have := h []; cases this
    · intro e
      constructor
      · intro h out; obtain ⟨o, ho⟩ := h []; rw [hr] at ho; cases ho; exact ⟨_, rfl⟩
      · intro h out; obtain ⟨o, ho⟩ := h []; cases ho; rw [happ, hr]; exact ⟨_, rfl⟩
  · constructor
    · intro bs
      constructor
      · intro h out; have := h []; rw [hr] at this; cases this; rfl
      · intro h out; have := h []; cases this; rw [happ, hr]
    · intro e
      constructor
      · intro h; obtain ⟨o, ho⟩ := h []; rw [hr] at ho; cases ho
      · intro h; obtain ⟨o, ho⟩ := h []; cases ho

/-- C31: at all other types (that are no wrappers, for which see `C31_bytes`) a 256 bit number is refused, in particular at 256 bit numbers and other primitives. -/
theorem C31_bytes_nowhere_else (reg : Reg Id) (cc : Bool) (b : Bytes32) (p : Primitive) (hp : p = .u256 b ∨ p = .i256 b) (x : Γ) (t : Id)
    (hs : ∀ u, reg.resolve t ≠ some (.sequence u)) (ha : ∀ u n, reg.resolve t ≠ some (.array u n))
    (hc : ∀ f, reg.resolve t ≠ some (.composite [f])) (ht : ∀ u, reg.resolve t ≠ some (.tuple [u])) : Fails ((Value.mk (.primitive p) x).encode reg cc t) := by
  have key : (Value.mk (.primitive p) x).encode reg cc t = encBytesN reg b.bytes (reg.rank t + 1) t := by
    rw [enc_prim]
    rcases hp with rfl | rfl <;> rfl
  rw [key, encBytesN]
  split
  · next h => exact (ha _ _ h).elim
  · next h => exact (hs _ h).elim
  · next h => exact (hc _ h).elim
  · next h => exact (ht _ h).elim
  · exact fun out => ⟨_, _, rfl⟩
  · exact fun out => ⟨_, _, rfl⟩

/-- Bytes at `Vec<u8>`, in `exReg`. -/
example : Okay ((Value.mk (.primitive (.u256 ⟨List.replicate 32 7, rfl⟩)) () : Value Unit).encode exReg true 2) (128 :: List.replicate 32 7) :=
  ((C31_bytes_list exReg true ⟨List.replicate 32 7, rfl⟩ _ (.inl rfl) (List.replicate 32 (exU 7)) () () rfl 2 0 (.inl rfl)).1 _).2 (by
    intro out; simp only [enc_composite]; rfl)

/-- C31: an unnamed composite with several values (or none) encodes at a type as at the type that it wraps. -/
theorem C31_unnamed (reg : Reg Id) (cc : Bool) (vs : List (Value Γ)) (x : Γ) (hl : vs.length ≠ 1) (t u : Id) (h : SameRepr reg t u) (bs : List UInt8) :
    Okay ((Value.mk (.composite (.unnamed vs)) x).encode reg cc t) bs ↔ Okay ((Value.mk (.composite (.unnamed vs)) x).encode reg cc u) bs := by
  have hc := children_cases reg cc (.unnamed vs)
  have hl' : ((Composite.unnamed vs).encChildren reg cc).length ≠ 1 := by rw [children_len]; exact hl
  rw [enc_composite, enc_composite, okay_composite_inner hc (unnamed_none reg cc vs) hl', okay_composite_inner hc (unnamed_none reg cc vs) hl',
    findSingle_sameRepr h]

/-- C31: putting a value into composites with one value each does not change what it encodes to, at primitive types, enums and `Compact`, and
at wrappers of these. -/
theorem C31_wrapped_value (reg : Reg Id) (cc : Bool) (v w : Value Γ) (h : InSingles v w) (hw : IsAtom w) (t u : Id) (ht : SameRepr reg t u)
    (hs : Simple reg t) (bs : List UInt8) : Okay (v.encode reg cc t) bs ↔ Okay (w.encode reg cc u) bs := by
  rw [okay_inSingles h hw hs, C31_atoms reg cc w hw t u ht]

/-- C31 is about something: `X(W(u8))`. -/
example : Okay ((exU 7).encode exReg true 15) [7] ∧ SameRepr exReg 15 0 ∧ Simple exReg 15 ∧
    Okay ((Value.unnamedComposite [.namedComposite [(['z'], .unnamedComposite [exU 7])]]).encode exReg true 15) [7] := by
  refine ⟨fun out => rfl, .step (.composite (f := ⟨none, 14⟩) rfl) (.step (.composite (f := ⟨none, 0⟩) rfl) (.refl _)),
    simple_iff.2 ⟨.primitive .u8, rfl, trivial⟩, fun out => rfl⟩

/-- C31: `C31_unnamed` is about something: two lists of bytes at the type `Z(Y(Vec<Vec<u8>>))`. -/
example : Okay ((Value.unnamedComposite [.unnamedComposite [exU 7], .unnamedComposite []]).encode exReg true 20) [8, 4, 7, 0] ∧ SameRepr exReg 20 18 :=
  ⟨fun out => rfl, .step (.composite (f := ⟨none, 19⟩) rfl) (.step (.composite (f := ⟨none, 18⟩) rfl) (.refl _))⟩

/-! ### C32 -/

/-- C32: for a list of fields that have names, a named composite encodes to the bytes of the fields in the order of the fields; each with the (last)
value of its name. That there are further values does not matter; but all fields must be there. -/
theorem C32_fields (reg : Reg Id) (cc : Bool) (l : List (Str × Value Γ)) (fs : List (Str × Id)) (hf : fs ≠ []) (bs : List UInt8) :
    Okay ((Composite.named l).encodeAsFields reg cc (fs.map (fun p => ⟨some p.1, p.2⟩))) bs ↔ EncByName reg cc l fs bs := by
  unfold Composite.encodeAsFields
  rw [Composite.encChildren, encNamed_eq]
  exact okay_fieldsTo_named hf

/-- C32: the same for a variant with named values at an enum type (or a wrapper of one): what comes first is the index of the variant of that name. -/
theorem C32_variant (reg : Reg Id) (cc : Bool) (n : Str) (l : List (Str × Value Γ)) (x : Γ) (t u : Id) (hu : Innermost reg t u) (ds : List (VariantDef Id))
    (hr : reg.resolve u = some (.variant ds)) (d : VariantDef Id) (hd : ds.find? (fun d => d.name == n) = some d) (fs : List (Str × Id)) (hf : fs ≠ [])
    (hfs : d.fields = fs.map (fun p => ⟨some p.1, p.2⟩)) (bs : List UInt8) :
    Okay ((Value.mk (.variant (.mk n (.named l))) x).encode reg cc t) bs ↔ ∃ rest, bs = d.index :: rest ∧ EncByName reg cc l fs rest := by
  rw [enc_variant]
  unfold encVariant
  rw [findSingle_iff.2 hu, hr]
  simp only
  rw [hd]
  simp only
  rw [okay_seq_iff (append_write _) (append_fieldsTo (append_children reg cc _) _), hfs]
  simp only [okay_write_iff, Composite.encChildren, encNamed_eq, okay_fieldsTo_named hf]
  constructor
  · rintro ⟨a, b, rfl, h, rfl⟩; exact ⟨b, rfl, h⟩
  · rintro ⟨b, rfl, h⟩; exact ⟨_, b, rfl, h, rfl⟩

/-- C32: the same for a named composite at a struct type with several fields. When the composite has only one value, and there are fields missing, then
that value is tried in place of the composite. -/
theorem C32_struct (reg : Reg Id) (cc : Bool) (l : List (Str × Value Γ)) (x : Γ) (t : Id) (fs : List (Str × Id)) (hf : 2 ≤ fs.length)
    (hr : reg.resolve t = some (.composite (fs.map (fun p => ⟨some p.1, p.2⟩)))) (bs : List UInt8) :
    Okay ((Value.mk (.composite (.named l)) x).encode reg cc t) bs ↔
      EncByName reg cc l fs bs ∨ ((∀ bs', ¬ EncByName reg cc l fs bs') ∧ ∃ n v, l = [(n, v)] ∧ Okay (v.encode reg cc t) bs) := by
  have he : Entries reg t _ := .composite hr (by rw [List.length_map]; omega)
  have hw := not_wraps_of (entries_not_single he)
  have hf' : fs ≠ [] := by rintro rfl; simp at hf
  have hdo : doEncodeComposite reg (l.map (childNamed reg cc)) t = encFieldsTo (l.map (childNamed reg cc)) (fs.map (fun p => ⟨some p.1, p.2⟩)) := by
    unfold doEncodeComposite
    rw [hr]
    simp only
    unfold encCompositeAsType
    rw [skip_done hw, hr]
    simp only
    split
    · rename_i h1 h2; rw [h2] at h1
      cases l with
      | nil => simp at h2
      | cons p l => simp at h2; rw [← h2.1] at h1; simp [childNamed] at h1
    · rfl
  rw [enc_named, okay_composite_done (append_fields reg cc l) (entries_not_single he), hdo, okay_fieldsTo_named hf', fails_iff (append_fieldsTo (append_fields reg cc l) _)]
  simp only [okay_fieldsTo_named hf']
  refine or_congr_right (and_congr_right fun _ => ?_)
  constructor
  · rintro ⟨c, hc, h⟩
    obtain ⟨p, l', rfl, h1, h2⟩ := List.map_eq_cons_iff.1 hc
    rw [List.map_eq_nil_iff] at h2
    subst h1 h2
    exact ⟨p.1, p.2, rfl, h⟩
  · rintro ⟨n, v, rfl, h⟩; exact ⟨_, rfl, h⟩

theorem lastNamed_iff {l : List (Str × Value Γ)} (h : (l.map (·.1)).Nodup) {n : Str} {v : Value Γ} : LastNamed l n v ↔ (n, v) ∈ l := by
  constructor
  · rintro ⟨a, b, rfl, -⟩; simp
  · intro hm
    obtain ⟨a, b, rfl⟩ := List.append_of_mem hm
    refine ⟨a, b, rfl, ?_⟩
    intro w hw
    simp only [List.map_append, List.map_cons, List.nodup_append, List.nodup_cons] at h
    exact h.2.1.1 (List.mem_map_of_mem (f := (·.1)) hw)

theorem encByName_perm {reg : Reg Id} {cc : Bool} {l l' : List (Str × Value Γ)} (h : ∀ n v, LastNamed l n v → LastNamed l' n v) {fs : List (Str × Id)} {bs : List UInt8}
    (he : EncByName reg cc l fs bs) : EncByName reg cc l' fs bs := by
  induction he with
  | nil => exact .nil
  | cons h1 h2 _ ih => exact .cons (h _ _ h1) h2 ih

/-- C32: so the order of the values does not matter when their names are distinct, for field lists, variants and structs alike. -/
theorem C32_order (reg : Reg Id) (cc : Bool) (l l' : List (Str × Value Γ)) (hd : (l.map (·.1)).Nodup) (hp : l.Perm l') (fs : List (Str × Id)) (bs : List UInt8) :
    EncByName reg cc l fs bs ↔ EncByName reg cc l' fs bs := by
  have hd' : (l'.map (·.1)).Nodup := (hp.map _).nodup_iff.1 hd
  exact ⟨encByName_perm fun n v h => (lastNamed_iff hd').2 (hp.mem_iff.1 ((lastNamed_iff hd).1 h)),
    encByName_perm fun n v h => (lastNamed_iff hd).2 (hp.mem_iff.2 ((lastNamed_iff hd').1 h))⟩

/-- C32: nor do surplus values. -/
theorem C32_surplus (reg : Reg Id) (cc : Bool) (l extra : List (Str × Value Γ)) (fs : List (Str × Id)) (he : ∀ p ∈ extra, ∀ f ∈ fs, p.1 ≠ f.1) (bs : List UInt8) :
    EncByName reg cc (l ++ extra) fs bs ↔ EncByName reg cc l fs bs := by
  have key : ∀ n, (∀ p ∈ extra, p.1 ≠ n) → ∀ v, LastNamed (l ++ extra) n v ↔ LastNamed l n v := by
    intro n hn v
    constructor
    · rintro ⟨a, b, h1, h2⟩
      obtain ⟨m, rfl, h3⟩ | ⟨m, h3, h4⟩ := List.append_eq_append_iff.1 h1
      · exact (hn (n, v) (by rw [h3]; simp) rfl).elim
      · cases m with
        | nil =>
          simp at h4
          exact (hn (n, v) (by rw [← h4]; simp) rfl).elim
        | cons q m =>
          simp only [List.cons_append, List.cons.injEq] at h4
          obtain ⟨rfl, rfl⟩ := h4
          exact ⟨a, m, h3, fun w hw => h2 w (by simp [hw])⟩
    · rintro ⟨a, b, rfl, h2⟩
      refine ⟨a, b ++ extra, by simp, ?_⟩
      intro w hw
      rcases List.mem_append.1 hw with hw | hw
      · exact h2 w hw
      · exact hn _ hw rfl
  constructor
  · intro h
    induction h with
    | nil => exact .nil
    | cons h1 h2 _ ih => exact .cons ((key _ (fun p hp => he p hp (_, _) List.mem_cons_self) _).1 h1) h2 (ih fun p hp f hf => he p hp f (by simp [hf]))
  · intro h
    induction h with
    | nil => exact .nil
    | cons h1 h2 _ ih => exact .cons ((key _ (fun p hp => he p hp (_, _) List.mem_cons_self) _).2 h1) h2 (ih fun p hp f hf => he p hp f (by simp [hf]))

/-- C32: a missing field is an error, for a field list. -/
theorem C32_missing (reg : Reg Id) (cc : Bool) (l : List (Str × Value Γ)) (fs : List (Str × Id)) (n : Str) (t : Id) (hm : (n, t) ∈ fs) (hl : ∀ v, (n, v) ∉ l) :
    Fails ((Composite.named l).encodeAsFields reg cc (fs.map (fun p => ⟨some p.1, p.2⟩))) := by
  have hf : fs ≠ [] := by rintro rfl; cases hm
  refine (fails_iff (append_fieldsTo (append_children reg cc _) _)).2 ?_
  intro bs ho
  have := (C32_fields reg cc l fs hf bs).1 ho
  clear ho hf
  induction this with
  | nil => cases hm
  | @cons n' t' fs v _ _ h1 _ _ ih =>
    rcases List.mem_cons.1 hm with h | h
    · cases h
      obtain ⟨a, b, rfl, -⟩ := h1
      exact hl v (by simp)
    · exact ih h

/-- C32 is about something: the struct `{ a: u8, b: Vec<u8> }`, with the values in the other order, one to spare, and `b` twice. -/
example : Okay ((Value.namedComposite [(['b'], .bool true), (['x'], .bool true), (['b'], .unnamedComposite [exU 9]), (['a'], exU 7)]).encode exReg true 3) [7, 4, 9] :=
  fun out => rfl

/-- C32: a registry with the type `struct { a: u8 }`. -/
def exReg32 : Reg Nat where
  resolve
    | 0 => some (.primitive .u8)
    | 1 => some (.composite [⟨some ['a'], 0⟩])
    | _ => none
  rank t := t
  rank_lt := by
    intro t d u h hu
    split at h <;> cases h <;> simp [TypeDef.inline] at hu
    omega

/-- C32: a struct with one field is looked through, and there a composite with one value encodes even when the name is wrong. -/
theorem C32_wrong_name : Okay ((Value.namedComposite [(['b'], exU 5)]).encode exReg32 true 1) [5] := fun out => rfl

/-! ### C33 -/

/-- C33: an unnamed composite with several values (or none) encodes at an array, tuple or struct type with several entries (or none) exactly when the
numbers are the same and each value encodes at its type. -/
theorem C33_unnamed (reg : Reg Id) (cc : Bool) (vs : List (Value Γ)) (x : Γ) (hl : vs.length ≠ 1) (t : Id) (ts : List Id) (ht : Entries reg t ts) (bs : List UInt8) :
    Okay ((Value.mk (.composite (.unnamed vs)) x).encode reg cc t) bs ↔ vs.length = ts.length ∧ EncAll reg cc ts vs bs := by
  have hc := children_cases reg cc (.unnamed vs)
  have hl' : ((Composite.unnamed vs).encChildren reg cc).length ≠ 1 := by rw [children_len]; exact hl
  rw [enc_composite, okay_composite_inner hc (unnamed_none reg cc vs) hl', findSingle_done (entries_not_single ht), okay_entries hc (unnamed_none reg cc vs) hl' ht]
  exact ⟨fun h => ⟨encAll_length h, h⟩, fun h => h.2⟩

/-- C33: with another number of values it is an error. -/
theorem C33_wrong_length (reg : Reg Id) (cc : Bool) (vs : List (Value Γ)) (x : Γ) (hl : vs.length ≠ 1) (t : Id) (ts : List Id) (ht : Entries reg t ts)
    (hn : vs.length ≠ ts.length) : Fails ((Value.mk (.composite (.unnamed vs)) x).encode reg cc t) :=
  (fails_iff (append_value reg cc _ t)).2 fun bs ho => hn ((C33_unnamed reg cc vs x hl t ts ht bs).1 ho).1

/-- C33: one value in an unnamed composite stands for itself at such a type. -/
theorem C33_one (reg : Reg Id) (cc : Bool) (v : Value Γ) (x : Γ) (t : Id) (ts : List Id) (ht : Entries reg t ts) (bs : List UInt8) :
    Okay ((Value.mk (.composite (.unnamed [v])) x).encode reg cc t) bs ↔ Okay (v.encode reg cc t) bs := by
  rw [enc_unnamed]
  exact okay_single_entries (c := childOf reg cc v) (append_vals reg cc [v]) rfl ht

/-- C33: any composite at an array type, other than of length one: names do not matter. -/
theorem C33_array (reg : Reg Id) (cc : Bool) (c : Composite Γ) (x : Γ) (t u : Id) (n : Nat) (hn : n ≠ 1) (ht : reg.resolve t = some (.array u n)) (bs : List UInt8) :
    Okay ((Value.mk (.composite c) x).encode reg cc t) bs ↔
      (c.vals.length = n ∧ EncAll reg cc (List.replicate n u) c.vals bs) ∨ ∃ v, c.vals = [v] ∧ Okay (v.encode reg cc t) bs := by
  have hc := children_cases reg cc c
  rw [enc_composite, okay_composite_done (append_children reg cc c) (entries_not_single (.array ht hn))]
  have hdo : Okay (doEncodeComposite reg (c.encChildren reg cc) t) bs ↔ c.vals.length = n ∧ EncAll reg cc (List.replicate n u) c.vals bs := by
    unfold doEncodeComposite
    rw [ht]
    simp only
    rw [children_len]
    split
    · rename_i h
      exact ⟨fun ho => (okay_not_fails ho (fails_fail _)).elim, fun h' => (h h'.1).elim⟩
    · rename_i h
      rw [okay_items_iff hc, children_len, Decidable.not_not.1 h]
      simp
  rw [hdo]
  refine or_congr_right ?_
  constructor
  · rintro ⟨-, k, hk, h⟩
    obtain ⟨v, hv, h1⟩ := single_children hk
    exact ⟨v, hv, by rwa [h1] at h⟩
  · rintro ⟨v, hv, h⟩
    obtain ⟨k, hk, h1⟩ := single_vals (reg := reg) (cc := cc) hv
    refine ⟨?_, k, hk, by rwa [h1]⟩
    unfold doEncodeComposite
    rw [ht]
    simp only
    rw [if_pos (by rw [hk]; simpa using fun h => hn h.symm)]
    exact fails_fail _

/-- C33: any composite at a sequence type: the number of values in compact form, then the values. One value that is not of the type of the items stands
for itself. -/
theorem C33_sequence (reg : Reg Id) (cc : Bool) (c : Composite Γ) (x : Γ) (hl : c.vals.length < 2 ^ 32) (t u : Id) (ht : reg.resolve t = some (.sequence u)) (bs : List UInt8) :
    Okay ((Value.mk (.composite c) x).encode reg cc t) bs ↔
      (∃ p rest, IsCompact c.vals.length p ∧ EncAll reg cc (List.replicate c.vals.length u) c.vals rest ∧ bs = p ++ rest) ∨
        ∃ v, c.vals = [v] ∧ (∀ r, ¬ Okay (v.encode reg cc u) r) ∧ Okay (v.encode reg cc t) bs := by
  have hc := children_cases reg cc c
  have hg := append_children reg cc c
  have hs : ∀ u, ¬ SingleEntry reg t u := by
    intro w hs
    cases hs with
    | composite h => rw [ht] at h; cases h
    | tuple h => rw [ht] at h; cases h
    | array h => rw [ht] at h; cases h
  rw [enc_composite, okay_composite_done hg hs]
  have hdo : ∀ bs, Okay (doEncodeComposite reg (c.encChildren reg cc) t) bs ↔
      ∃ p rest, IsCompact c.vals.length p ∧ EncAll reg cc (List.replicate c.vals.length u) c.vals rest ∧ bs = p ++ rest := by
    intro bs
    unfold doEncodeComposite
    rw [ht]
    simp only
    rw [okay_seq_iff (append_write _) (append_items hg _ _ _)]
    simp only [okay_write_iff, okay_items_iff hc, children_len, isCompact_iff (show c.vals.length < 2 ^ 128 by omega), Nat.mod_eq_of_lt hl]
  rw [hdo]
  refine or_congr_right ?_
  rw [fails_iff (append_doEncode hg reg t)]
  constructor
  · rintro ⟨hn, k, hk, h⟩
    obtain ⟨v, hv, h1⟩ := single_children hk
    refine ⟨v, hv, ?_, by rwa [h1] at h⟩
    intro r hr
    refine hn (compactEnc 1 ++ (r ++ [])) ((hdo _).2 ⟨_, _, (isCompact_iff (by omega)).2 rfl, ?_, by rw [hv]; rfl⟩)
    rw [hv]
    exact .cons hr .nil
  · rintro ⟨v, hv, hn, h⟩
    obtain ⟨k, hk, h1⟩ := single_vals (reg := reg) (cc := cc) hv
    refine ⟨?_, k, hk, by rwa [h1]⟩
    intro r hr
    obtain ⟨p, rest, -, h2, -⟩ := (hdo r).1 hr
    rw [hv] at h2
    cases h2 with
    | cons h3 _ => exact hn _ h3

/-- C33: a variant with unnamed values encodes at an enum type (or a wrapper of one) exactly when there is a variant of that name with the same number of
fields, and each value encodes at its type. -/
theorem C33_variant (reg : Reg Id) (cc : Bool) (n : Str) (vs : List (Value Γ)) (x : Γ) (t u : Id) (hu : Innermost reg t u) (ds : List (VariantDef Id))
    (hr : reg.resolve u = some (.variant ds)) (bs : List UInt8) :
    Okay ((Value.mk (.variant (.mk n (.unnamed vs))) x).encode reg cc t) bs ↔
      ∃ d rest, ds.find? (fun d => d.name == n) = some d ∧ bs = d.index :: rest ∧ vs.length = d.fields.length ∧
        EncAll reg cc (d.fields.map (fun f => f.id)) vs rest := by
  have hc := children_cases reg cc (.unnamed vs)
  rw [enc_variant]
  unfold encVariant
  rw [findSingle_iff.2 hu, hr]
  simp only
  split
  · rename_i h
    constructor
    · intro ho; exact (okay_not_fails ho (fails_fail _)).elim
    · rintro ⟨d, rest, h1, -⟩; rw [h1] at h; cases h
  · rename_i d h
    rw [okay_seq_iff (append_write _) (append_fieldsTo (append_children reg cc _) _)]
    simp only [okay_write_iff, okay_fieldsTo_order hc (.inl (unnamed_none reg cc vs)), h, Option.some.injEq]
    constructor
    · rintro ⟨a, b, rfl, h1, rfl⟩; exact ⟨d, b, rfl, rfl, by simpa [Composite.vals] using encAll_length h1, h1⟩
    · rintro ⟨d', b, rfl, rfl, -, h1⟩; exact ⟨_, b, rfl, h1, rfl⟩

/-- C33 is about something: `[u8; 3]`. -/
example : Okay ((Value.unnamedComposite [exU 1, exU 2, exU 3]).encode exReg true 8) [1, 2, 3] ∧ Entries exReg 8 [0, 0, 0] ∧
    Fails ((Value.unnamedComposite [exU 1, exU 2]).encode exReg true 8) :=
  ⟨fun out => rfl, .array (n := 3) rfl (by decide), fun out => ⟨_, _, rfl⟩⟩

/-- C33: one value is taken for itself: `((1, 2, 3),)` at `[u8; 3]`. -/
example : Okay ((Value.unnamedComposite [.unnamedComposite [exU 1, exU 2, exU 3]]).encode exReg true 8) [1, 2, 3] := fun out => rfl

/-! ### C34 -/

/-- C34: the encoding of a bit sequence: its length in compact form, and the bits packed in the way of the type. -/
theorem C34_bits (reg : Reg Id) (cc : Bool) (b : List Bool) (x : Γ) (hl : b.length < 2 ^ 32) (t u : Id) (hu : Innermost reg t u) (s : BitStore) (o : BitOrder)
    (hr : reg.resolve u = some (.bitSequence s o)) (bs : List UInt8) :
    Okay ((Value.mk (.bitSequence b) x).encode reg cc t) bs ↔ ∃ p q, IsCompact b.length p ∧ IsBits True s o b q ∧ bs = p ++ q := by
  rw [enc_bits, okay_bits_iff, findSingle_iff.2 hu, hr]
  constructor
  · rintro ⟨s', o', h, rfl⟩
    cases h
    exact ⟨compactEnc b.length, _, (isCompact_iff (by omega)).2 rfl, isBits_encWords True s o b, by unfold bitsEnc; rw [Nat.mod_eq_of_lt hl]⟩
  · rintro ⟨p, q, h1, h2, rfl⟩
    exact ⟨s, o, rfl, bitsEnc_spec h1 hl h2⟩

/-- C34: a composite encodes at a bit sequence type exactly when all its values stand for bits, and then as the sequence of these bits; or when it has
one value that does not stand for a bit but encodes at that type. -/
theorem C34_composite (reg : Reg Id) (cc : Bool) (c : Composite Γ) (x : Γ) (t : Id) (s : BitStore) (o : BitOrder)
    (hr : reg.resolve t = some (.bitSequence s o)) (bs : List UInt8) :
    Okay ((Value.mk (.composite c) x).encode reg cc t) bs ↔
      (∃ b, List.Forall₂ IsBit c.vals b ∧ Okay ((Value.bitSequence b).encode reg cc t) bs) ∨
        ∃ v, c.vals = [v] ∧ (∀ b, ¬ IsBit v b) ∧ Okay (v.encode reg cc t) bs := by
  have hc := children_cases reg cc c
  have hg := append_children reg cc c
  have hs : ∀ u, ¬ SingleEntry reg t u := by
    intro w hs
    cases hs with
    | composite h => rw [hr] at h; cases h
    | tuple h => rw [hr] at h; cases h
    | array h => rw [hr] at h; cases h
  have hb : ∀ b bs, Okay ((Value.bitSequence b).encode reg cc t) bs ↔ bs = bitsEnc s o b := by
    intro b bs
    unfold Value.bitSequence
    rw [enc_bits, okay_bits_iff, findSingle_done hs, hr]
    constructor
    · rintro ⟨s', o', h, rfl⟩; cases h; rfl
    · rintro rfl; exact ⟨s, o, rfl, rfl⟩
  rw [enc_composite, okay_composite_done hg hs, okay_do_bits hc hr]
  simp only [hb]
  refine or_congr_right ?_
  rw [fails_iff (append_doEncode hg reg t)]
  simp only [okay_do_bits hc hr]
  constructor
  · rintro ⟨hn, k, hk, h⟩
    obtain ⟨v, hv, h1⟩ := single_children hk
    refine ⟨v, hv, ?_, by rwa [h1] at h⟩
    intro b hb
    exact hn _ ⟨[b], by rw [hv]; exact .cons hb .nil, rfl⟩
  · rintro ⟨v, hv, hn, h⟩
    obtain ⟨k, hk, h1⟩ := single_vals (reg := reg) (cc := cc) hv
    refine ⟨?_, k, hk, by rwa [h1]⟩
    rintro r ⟨b, hb, -⟩
    rw [hv] at hb
    cases hb with
    | cons h1 _ => exact hn _ h1

/-- C34: if one of several values does not stand for a bit then it is an error. -/
theorem C34_not_a_bit (reg : Reg Id) (cc : Bool) (c : Composite Γ) (x : Γ) (hl : c.vals.length ≠ 1) (t : Id) (s : BitStore) (o : BitOrder)
    (hr : reg.resolve t = some (.bitSequence s o)) (v : Value Γ) (hv : v ∈ c.vals) (hb : ∀ b, ¬ IsBit v b) : Fails ((Value.mk (.composite c) x).encode reg cc t) := by
  refine (fails_iff (append_value reg cc _ t)).2 ?_
  intro bs ho
  rcases (C34_composite reg cc c x t s o hr bs).1 ho with ⟨b, h, -⟩ | ⟨w, h, -⟩
  · have key : ∀ (vs : List (Value Γ)) b, List.Forall₂ IsBit vs b → v ∉ vs := by
      intro vs b h
      induction h with
      | nil => simp
      | cons h1 _ ih =>
        intro hm
        rcases List.mem_cons.1 hm with rfl | hm
        · exact hb _ h1
        · exact ih hm
    exact key _ _ h hv
  · rw [h] at hl; simp at hl

/-- C34 is about something. -/
example : Okay ((Value.unnamedComposite [.bool true, exU 0, .i128 ⟨1, by decide, by decide⟩]).encode exReg true 9) [12, 5] ∧
    Okay ((Value.bitSequence [true, false, true]).encode exReg true 9) [12, 5] ∧
    Fails ((Value.unnamedComposite [.bool true, exU 2]).encode exReg true 9) :=
  ⟨fun out => rfl, fun out => rfl, fun out => ⟨_, _, rfl⟩⟩

/-! ### C35 -/

/-- C35: a number encodes at a type exactly when the type is (a wrapper of) an integer type, or the `Compact` of one, that has that number; and then to the
bytes of that number. -/
theorem C35_numbers (reg : Reg Id) (cc : Bool) (x : Γ) (t u : Id) (hu : Innermost reg t u) (bs : List UInt8) :
    (∀ n : U128, Okay ((Value.mk (.primitive (.u128 n)) x).encode reg cc t) bs ↔ NumAt reg false u n.val bs) ∧
    (∀ n : I128, Okay ((Value.mk (.primitive (.i128 n)) x).encode reg cc t) bs ↔ NumAt reg false u n.val bs) := by
  constructor
  · intro n; rw [enc_prim, encPrimitive, okay_num_iff, findSingle_iff.2 hu]
  · intro n; rw [enc_prim, encPrimitive, okay_num_iff, findSingle_iff.2 hu]

/-- C35: a character encodes like the number of its code point (and at `char`, depending on the version of `scale-encode`). -/
theorem C35_char (reg : Reg Id) (cc : Bool) (x : Γ) (c : Char) (t u : Id) (hu : Innermost reg t u) (bs : List UInt8) :
    Okay ((Value.mk (.primitive (.char c)) x).encode reg cc t) bs ↔ NumAt reg cc u c.toNat bs := by
  rw [enc_prim, encPrimitive, okay_num_iff, findSingle_iff.2 hu]

/-- C35: the number can be told from the bytes: two numbers that encode to the same bytes at a type are the same. -/
theorem C35_injective (reg : Reg Id) (cc : Bool) (u : Id) (n m : Int) (bs : List UInt8) (h1 : NumAt reg cc u n bs) (h2 : NumAt reg cc u m bs) : n = m := by
  have hle : ∀ {k n m bs}, IsLe k n bs → IsLe k m bs → (n : Int) = m := by
    intro k n m bs h1 h2; rw [← h1.2, ← h2.2]
  have huk : ∀ {p k k'}, UintType p k → UintType p k' → k = k' := by intro p k k' h h'; cases h <;> cases h' <;> rfl
  have hik : ∀ {p k k'}, IntType p k → IntType p k' → k = k' := by intro p k k' h h'; cases h <;> cases h' <;> rfl
  cases h1 with
  | uint a1 a2 a3 => cases h2 with
    | uint b1 b2 b3 => rw [a1] at b1; cases b1; cases huk a2 b2; exact hle a3 b3
    | int b1 b2 b3 => rw [a1] at b1; cases b1; cases a2 <;> cases b2
    | char b1 b2 b3 => rw [a1] at b1; cases b1; cases a2
    | compact b1 => rw [a1] at b1; cases b1
  | int a1 a2 a3 => cases h2 with
    | uint b1 b2 b3 => rw [a1] at b1; cases b1; cases b2 <;> cases a2
    | int b1 b2 b3 => rw [a1] at b1; cases b1; cases hik a2 b2; exact (isLeInt_iff.1 a3).2.symm.trans (isLeInt_iff.1 b3).2
    | char b1 b2 b3 => rw [a1] at b1; cases b1; cases a2
    | compact b1 => rw [a1] at b1; cases b1
  | char a1 a2 a3 => cases h2 with
    | uint b1 b2 b3 => rw [a1] at b1; cases b1; cases b2
    | int b1 b2 b3 => rw [a1] at b1; cases b1; cases b2
    | char b1 b2 b3 => exact hle a3 b3
    | compact b1 => rw [a1] at b1; cases b1
  | compact a1 a2 a3 a4 a5 a6 => cases h2 with
    | uint b1 b2 b3 => rw [a1] at b1; cases b1
    | int b1 b2 b3 => rw [a1] at b1; cases b1
    | char b1 b2 b3 => rw [a1] at b1; cases b1
    | compact b1 b2 b3 b4 b5 b6 =>
      have hp : ∀ {p k}, UintType p k → (256 : Nat) ^ k ≤ 2 ^ 128 := by
        intro p k h
        calc (256 : Nat) ^ k ≤ 256 ^ 16 := Nat.pow_le_pow_right (by decide) (uintType_le h)
          _ = 2 ^ 128 := by decide
      have h1 := compactDec_complete a6 (bits := 128) (by have := hp a4; omega) []
      have h2 := compactDec_complete b6 (bits := 128) (by have := hp b4; omega) []
      rw [h1] at h2
      simp only [Option.some.injEq, Prod.mk.injEq, and_true] at h2
      exact_mod_cast h2

/-- C35: a number that does not fit is an error. -/
theorem C35_out_of_range (reg : Reg Id) (cc : Bool) (x : Γ) (t u : Id) (hu : Innermost reg t u) (p : Prim) (k : Nat) (hp : UintType p k)
    (hr : reg.resolve u = some (.primitive p) ∨ ∃ w y, reg.resolve u = some (.compact w) ∧ Innermost reg w y ∧ reg.resolve y = some (.primitive p)) :
    (∀ n : U128, 256 ^ k ≤ n.val → Fails ((Value.mk (.primitive (.u128 n)) x).encode reg cc t)) ∧
    (∀ n : I128, n.val < 0 ∨ (256 ^ k : Nat) ≤ n.val → Fails ((Value.mk (.primitive (.i128 n)) x).encode reg cc t)) := by
  have huk : ∀ {p k k'}, UintType p k → UintType p k' → k = k' := by intro p k k' h h'; cases h <;> cases h' <;> rfl
  have key : ∀ n : Int, n < 0 ∨ (256 ^ k : Nat) ≤ n → ∀ bs, ¬ NumAt reg false u n bs := by
    intro n hn bs h
    cases h with
    | uint a1 a2 a3 =>
      rcases hr with hr | ⟨w, y, hr, -⟩
      · rw [hr] at a1; cases a1; cases huk hp a2
        have := (isLe_iff.1 a3).1
        omega
      · rw [hr] at a1; cases a1
    | int a1 a2 a3 =>
      rcases hr with hr | ⟨w, y, hr, -⟩
      · rw [hr] at a1; cases a1; cases a2 <;> cases hp
      · rw [hr] at a1; cases a1
    | char a1 a2 => cases a2
    | compact a1 a2 a3 a4 a5 a6 =>
      rcases hr with hr | ⟨w, y, hr, hi, hy⟩
      · rw [hr] at a1; cases a1
      · rw [hr] at a1; cases a1
        have := (findSingle_iff.2 a2).symm.trans (findSingle_iff.2 hi)
        subst this
        rw [hy] at a3; cases a3; cases huk hp a4
        omega
  constructor
  · intro n hn
    refine (fails_iff (append_value reg cc _ t)).2 fun bs ho => key n.val (.inr (by exact_mod_cast hn)) bs (((C35_numbers reg cc x t u hu bs).1 n).1 ho)
  · intro n hn
    exact (fails_iff (append_value reg cc _ t)).2 fun bs ho => key n.val hn bs (((C35_numbers reg cc x t u hu bs).2 n).1 ho)

/-- C35: likewise for the signed types. -/
theorem C35_out_of_range_signed (reg : Reg Id) (cc : Bool) (x : Γ) (t u : Id) (hu : Innermost reg t u) (p : Prim) (k : Nat) (hp : IntType p k)
    (hr : reg.resolve u = some (.primitive p)) :
    (∀ n : U128, 256 ^ k ≤ 2 * n.val → Fails ((Value.mk (.primitive (.u128 n)) x).encode reg cc t)) ∧
    (∀ n : I128, 2 * n.val < -(256 ^ k : Nat) ∨ (256 ^ k : Nat) ≤ 2 * n.val → Fails ((Value.mk (.primitive (.i128 n)) x).encode reg cc t)) := by
  have hik : ∀ {p k k'}, IntType p k → IntType p k' → k = k' := by intro p k k' h h'; cases h <;> cases h' <;> rfl
  have key : ∀ n : Int, 2 * n < -(256 ^ k : Nat) ∨ (256 ^ k : Nat) ≤ 2 * n → ∀ bs, ¬ NumAt reg false u n bs := by
    intro n hn bs h
    cases h with
    | uint a1 a2 a3 => rw [hr] at a1; cases a1; cases a2 <;> cases hp
    | int a1 a2 a3 =>
      rw [hr] at a1; cases a1; cases hik hp a2
      have := a3
      unfold IsLeInt at this
      omega
    | char a1 a2 => cases a2
    | compact a1 a2 a3 a4 a5 a6 => rw [hr] at a1; cases a1
  constructor
  · intro n hn
    refine (fails_iff (append_value reg cc _ t)).2 fun bs ho => key n.val (.inr (by exact_mod_cast hn)) bs (((C35_numbers reg cc x t u hu bs).1 n).1 ho)
  · intro n hn
    exact (fails_iff (append_value reg cc _ t)).2 fun bs ho => key n.val hn bs (((C35_numbers reg cc x t u hu bs).2 n).1 ho)

/-- C35 is about something: -2 at `i16`, 300 at `Compact<u32>`, and 256 at `u8`. -/
example : Okay ((Value.i128 ⟨-2, by decide, by decide⟩).encode exReg true 16) [254, 255] ∧ Okay ((exU 300).encode exReg true 6) [177, 4] ∧
    Fails ((exU 256).encode exReg true 0) ∧ Fails ((Value.i128 ⟨-1, by decide, by decide⟩).encode exReg true 0) :=
  ⟨fun out => rfl, fun out => rfl, fun out => ⟨_, _, rfl⟩, fun out => ⟨_, _, rfl⟩⟩

end SV
