import Verif.Spec.ReadOwn
import Verif.Props.ReadFault
import Verif.Props.Doc
/-
C83: `Composite`, `Variant` and `Primitive` read from values.
-/
namespace SV

variable {T : Type}

/-! ### Composites -/

theorem deComposite_composite (f : Composite T) (c : T) : deComposite (Value.mk (.composite f) c).der = deComposite (.mk f.ask) := by simp only [Value.der, deComposite, ValueDef.ask]

theorem compositeBack_iff (v : Value T) (g : Composite Unit) : deComposite v.der = some g ↔ CompositeBack v g := by
  cases v with | mk d c =>
  cases d with
  | composite f =>
    rw [deComposite_composite]
    cases f with
    | named fs =>
      rw [deComp_fields]
      constructor
      · rintro ⟨gs, h, rfl⟩
        obtain ⟨h1, h2⟩ := (forall₂_names (R := fun (x : Value T) y => deValue x.der = some y)).1 h
        exact .named h1 (fun i x y hx hy => back_iff.1 (h2 i x y hx hy))
      · intro h
        cases h with
        | named names sub => exact ⟨_, (forall₂_names (R := fun (x : Value T) y => deValue x.der = some y)).2 ⟨names, fun i x y hx hy => back_iff.2 (sub i x y hx hy)⟩, rfl⟩
    | unnamed vs =>
      rw [deComp_vals]
      constructor
      · rintro ⟨gs, h, rfl⟩
        obtain ⟨h1, h2⟩ := pointwise_forall₂.2 h
        exact .unnamed h1 (fun i x y hx hy => back_iff.1 (h2 i x y hx hy))
      · intro h
        cases h with
        | unnamed len sub => exact ⟨_, pointwise_forall₂.1 ⟨len, fun i x y hx hy => back_iff.2 (sub i x y hx hy)⟩, rfl⟩
  | variant x =>
    cases x
    simp only [Value.der, deComposite, ValueDef.ask, Variant.ask, deComp]
    exact ⟨(by intro h; cases h), (by intro h; cases h)⟩
  | bitSequence b =>
    have hv : deComposite (Value.mk (.bitSequence b) c).der = some (.named [("__bitvec__values__".toList, .mk (.composite (.unnamed (b.map (fun b => .mk (.primitive (.bool b)) ())))) ())]) := by
      simp only [Value.der, deComposite, ValueDef.ask, bitsReply, deComp, deEntries, deString_strDer]
      have : deValue (boolsDer b) = some (.mk (.composite (.unnamed (b.map (fun b => .mk (.primitive (.bool b)) ())))) ()) := by
        simp only [boolsDer, deValue, deDef, deValues_bools]
      rw [this]
      rfl
    rw [hv]
    constructor
    · intro h; cases h; exact .bits (boolList_unit_iff.2 rfl)
    · intro h
      cases h with
      | bits h => rw [boolList_unit_iff.1 h]
  | primitive p =>
    cases p <;> simp only [Value.der, deComposite, ValueDef.ask, Primitive.ask, Primitive.any, deComp]
    all_goals constructor
    all_goals intro h
    all_goals cases h
    all_goals first | exact .u256 (byteList_iff.2 rfl) | exact .i256 (byteList_iff.2 rfl) | (rename_i h; rw [byteList_iff.1 h])

theorem valueE_readable (w : Value T) : (∃ b, deValueE w.der = .ok b) ↔ Readable .value w := by
  rw [← readable_iff (t := .value) (by simp [Ty.Proper]) w]
  constructor
  · rintro ⟨y, hy⟩; exact ⟨.value y, by rw [Ty.deE, hy]; rfl⟩
  · rintro ⟨y, hy⟩
    rw [Ty.deE] at hy
    cases hz : deValueE w.der with
    | error e' => rw [hz] at hy; cases hy
    | ok z => exact ⟨z, rfl⟩

theorem valueE_fault (w : Value T) (e : DeErr) : deValueE w.der = .error e ↔ ReadFault .value w e := by
  rw [← C82_error .value (by simp [Ty.Proper]) w e, Ty.deE, mapE_error]

theorem firstError_value (l : List (Value T)) (e : DeErr) : FirstError (fun w : Value T => deValueE w.der) l e ↔
    ∃ pre w post, l = pre ++ w :: post ∧ (∀ x ∈ pre, Readable .value x) ∧ ReadFault .value w e := by
  simp only [FirstError, valueE_readable, valueE_fault]

theorem compositeWrong_iff (v : Value T) (e : DeErr) : deCompositeE v.der = .error e ↔ CompositeWrong v e := by
  rw [C73_composite]
  simp only [firstError_value]
  constructor
  · rintro (⟨c, h, pre, w, post, h1, h2, h3⟩ | ⟨⟨x, h⟩ | ⟨p, h, hp⟩, u, h1, rfl⟩)
    · exact .part h h1 h2 h3
    · cases shownAs_unique h1 (.variant h)
      exact .variant h
    · exact .prim h hp h1
  · intro h
    cases h with
    | part h split fine sub => exact .inl ⟨_, h, _, _, _, split, fine, sub⟩
    | variant h => exact .inr ⟨.inl ⟨_, h⟩, _, .variant h, rfl⟩
    | prim h other shown => exact .inr ⟨.inr ⟨_, h, other⟩, _, shown, rfl⟩

/-! ### Variants -/

theorem string_reads (w : Value T) (s : Str) : deString w.der = some s ↔ ReadAs .string w (.str s) := by
  rw [← C81_reads, Ty.de]
  cases deString w.der <;> simp

theorem stringE_fault (w : Value T) (e : DeErr) : deStringE w.der = .error e ↔ ReadFault .string w e := by
  rw [← C82_error .string (by simp [Ty.Proper]) w e, Ty.deE, mapE_error]

theorem goodEntry_iff (p : Str × Value T) : GoodEntry (strDer p.1, p.2.der) ↔ EntryFine p := by
  simp only [GoodEntry, EntryFine, deString_strDer, Option.some.injEq, string_reads, compositeBack_iff]

theorem lastEntry_named {ps : List (Str × Value T)} {name : Str} {x : Der} : LastEntry (fieldDers ps) name x ↔ ∃ w, LastOfName ps name w ∧ x = w.der := by
  rw [fieldDers_eq]
  constructor
  · rintro ⟨pre, k, post, h1, h2, h3⟩
    obtain ⟨pre', r, rfl, rfl, h4⟩ := List.map_eq_append_iff.1 h1
    obtain ⟨⟨n, w⟩, post', rfl, h5, rfl⟩ := List.map_eq_cons_iff.1 h4
    cases h5
    rw [deString_strDer] at h2
    cases h2
    refine ⟨w, ⟨pre', post', rfl, ?_⟩, rfl⟩
    intro hm
    obtain ⟨q, hq, rfl⟩ := List.mem_map.1 hm
    exact h3 _ (List.mem_map.2 ⟨q, hq, rfl⟩) (deString_strDer _)
  · rintro ⟨w, ⟨pre, post, rfl, h⟩, rfl⟩
    refine ⟨pre.map (fun p => (strDer p.1, p.2.der)), strDer name, post.map (fun p => (strDer p.1, p.2.der)), by simp, deString_strDer _, ?_⟩
    intro p hp hn
    obtain ⟨q, hq, rfl⟩ := List.mem_map.1 hp
    rw [deString_strDer] at hn
    cases hn
    exact h (List.mem_map.2 ⟨q, hq, rfl⟩)

theorem variantBack_iff (v : Value T) (x : Variant Unit) : deVariant v.der = some x ↔ VariantBack v x := by
  obtain ⟨n, g⟩ := x
  cases v with | mk d c =>
  cases d with
  | composite f =>
    cases f with
    | named ps =>
      rw [C47_map _ false (fieldDers ps) (by simp [Value.der, Der.ask, ValueDef.ask, Composite.ask])]
      simp only [lastEntry_named]
      have all : (∀ p ∈ fieldDers ps, GoodEntry p) ↔ ∀ p ∈ ps, EntryFine p := by
        rw [fieldDers_eq]
        simp only [List.mem_map, forall_exists_index, and_imp, forall_apply_eq_imp_iff₂, goodEntry_iff]
      rw [all]
      constructor
      · rintro ⟨h, ⟨_, ⟨x, hx, rfl⟩, hn⟩, ⟨_, ⟨y, hy, rfl⟩, hg⟩⟩
        exact .named h hx ((string_reads _ _).1 hn) hy ((compositeBack_iff _ _).1 hg)
      · intro h
        cases h with
        | named h hx hn hy hg => exact ⟨h, ⟨_, ⟨_, hx, rfl⟩, (string_reads _ _).2 hn⟩, ⟨_, ⟨_, hy, rfl⟩, (compositeBack_iff _ _).2 hg⟩⟩
    | unnamed vs =>
      simp only [deVariant, Value.der, Der.visit, Der.ask, ValueDef.ask, Composite.ask]
      exact ⟨(by intro h; cases h), (by intro h; cases h)⟩
  | variant x =>
    cases x with | mk m f =>
    simp only [deVariant, Value.der, Der.visit, Der.ask, ValueDef.ask, Variant.ask, deString_strDer]
    rw [← deComposite_composite f c]
    constructor
    · intro h
      cases hc : deComposite (Value.mk (.composite f) c).der with
      | none => rw [hc] at h; cases h
      | some g => rw [hc] at h; cases h; exact .variant ((compositeBack_iff _ _).1 hc)
    · intro h
      cases h with
      | variant h => rw [(compositeBack_iff _ _).2 h]
  | bitSequence b =>
    simp only [deVariant, Value.der, Der.visit, Der.ask, ValueDef.ask, bitsReply, variantLoop, deString_strDer]
    rw [if_neg (by decide), if_neg (by decide)]
    exact ⟨(by intro h; cases h), (by intro h; cases h)⟩
  | primitive p =>
    cases p <;> simp only [deVariant, Value.der, Der.visit, Der.ask, ValueDef.ask, Primitive.ask, Primitive.any]
    all_goals exact ⟨(by intro h; cases h), (by intro h; cases h)⟩

theorem entryWrong_iff (p : Str × Value T) (e : DeErr) : VariantEntryFault p e ↔ EntryWrong p e := by
  obtain ⟨n, w⟩ := p
  constructor
  · intro h
    cases h with
    | name h bad => cases h; exact .name ((stringE_fault _ _).1 bad)
    | values h bad => cases h; exact .values ((compositeWrong_iff _ _).1 bad)
    | other h1 h2 => exact .other h1 h2
  · intro h
    cases h with
    | name h => exact .name rfl ((stringE_fault _ _).2 h)
    | values h => exact .values rfl ((compositeWrong_iff _ _).2 h)
    | other h1 h2 => exact .other h1 h2

theorem entryFine_iff (p : Str × Value T) : (∀ e, ¬ VariantEntryFault p e) ↔ EntryFine p := by
  obtain ⟨n, w⟩ := p
  have nv : "name".toList ≠ "values".toList := by decide
  have hs : (∀ e, deStringE w.der ≠ .error e) ↔ ∃ s, deString w.der = some s := by
    rw [← deStringE_agree]
    cases deStringE w.der <;> simp [Except.toOption]
  have hc : (∀ e, deCompositeE w.der ≠ .error e) ↔ ∃ s, deComposite w.der = some s := by
    rw [← deCompositeE_agree]
    cases deCompositeE w.der <;> simp [Except.toOption]
  simp only [EntryFine, ← string_reads, ← compositeBack_iff, ← hs, ← hc]
  constructor
  · intro h
    by_cases h1 : n = "name".toList
    · exact .inl ⟨h1, fun e he => h e (.name h1 he)⟩
    · by_cases h2 : n = "values".toList
      · exact .inr ⟨h2, fun e he => h e (.values h2 he)⟩
      · exact absurd (.other h1 h2) (h _)
  · rintro (⟨h1, h2⟩ | ⟨h1, h2⟩) e h
    · cases h with
      | name _ bad => exact h2 e bad
      | values h' _ => exact nv (h1.symm.trans h')
      | other h' _ => exact h' h1
    · cases h with
      | name h' _ => exact nv (h'.symm.trans h1)
      | values _ bad => exact h2 e bad
      | other _ h' => exact h' h1

theorem variantWrong_iff (v : Value T) (e : DeErr) : deVariantE v.der = .error e ↔ VariantWrong v e := by
  rw [C73_variant]
  simp only [firstError_value, entryFine_iff]
  simp only [entryWrong_iff]
  constructor
  · rintro (⟨n, c, h, pre, w, post, h1, h2, h3⟩ | ⟨ps, pre, p, post, h, rfl, h1, h2⟩ | ⟨ps, h, h1, h2, rfl⟩ | ⟨⟨b, h⟩, rfl⟩ | ⟨⟨vs, h⟩ | ⟨p, h⟩, u, h1, rfl⟩)
    · exact .part (c := v.context) h (.part rfl h1 h2 h3)
    · exact .entry h h1 h2
    · exact .missing h h1 h2
    · exact .bits h
    · cases shownAs_unique h1 (.unnamed h)
      exact .unnamed h
    · exact .prim h h1
  · intro h
    cases h with
    | part h sub =>
      cases sub with
      | part h' split fine sub => cases h'; exact .inl ⟨_, _, h, _, _, _, split, fine, sub⟩
      | variant h' => cases h'
      | prim h' => cases h'
    | entry h fine bad => exact .inr (.inl ⟨_, _, _, _, h, rfl, fine, bad⟩)
    | missing h fine none => exact .inr (.inr (.inl ⟨_, h, fine, none, rfl⟩))
    | bits h => exact .inr (.inr (.inr (.inl ⟨⟨_, h⟩, rfl⟩)))
    | unnamed h => exact .inr (.inr (.inr (.inr ⟨.inl ⟨_, h⟩, _, .unnamed h, rfl⟩)))
    | prim h shown => exact .inr (.inr (.inr (.inr ⟨.inr ⟨_, h⟩, _, shown, rfl⟩)))

/-! ### Primitives -/

theorem byte_reads (w : Value T) (y : UInt8) : (∃ m, deNum .u8 w.der = some m ∧ m.toU8 = y) ↔ w.number? = some (y.toNat : Int) := by
  have toU8 : ∀ m : Num, m.ty = .u8 → (m.toU8 = y ↔ m.val = y.toNat) := by
    intro m ht
    have h1 := m.ge; have h2 := m.lt
    rw [ht] at h1 h2
    simp only [NumTy.lo, NumTy.hi] at h1 h2
    have hb := y.toNat_lt
    rw [← UInt8.toNat_inj, Num.toU8, UInt8.toNat_ofNat']
    omega
  have rd : ∀ m, deNum .u8 w.der = some m ↔ m.ty = .u8 ∧ w.number? = some m.val := by
    intro m
    have h : (Ty.num .u8).de w.der = some (.num m) ↔ deNum .u8 w.der = some m := by
      rw [Ty.de]; cases deNum .u8 w.der <;> simp
    rw [← h, C81_reads]
    constructor
    · intro h; cases h with | num ty h => exact ⟨ty, h⟩
    · rintro ⟨ty, h⟩; exact .num ty h
  simp only [rd]
  constructor
  · rintro ⟨m, ⟨h1, h2⟩, h3⟩; rw [h2, (toU8 m h1).1 h3]
  · intro h
    have hb := y.toNat_lt
    exact ⟨⟨.u8, y.toNat, by simp only [NumTy.lo]; omega, by simp only [NumTy.hi]; omega⟩, ⟨rfl, h⟩, (toU8 _ rfl).2 rfl⟩

theorem allOf_bytes (vs : List (Value T)) (ys : List UInt8) : (∃ ns, allOf (deNum .u8) (valDers vs) = some ns ∧ ns.map Num.toU8 = ys) ↔
    List.Forall₂ (fun (w : Value T) (y : UInt8) => w.number? = some (y.toNat : Int)) vs ys := by
  induction vs generalizing ys with
  | nil => cases ys <;> simp [valDers, allOf]
  | cons v vs ih =>
    simp only [allOf_iff] at ih ⊢
    rw [valDers]
    cases ys with
    | nil => simp
    | cons y ys =>
      rw [List.forall₂_cons, ← ih, ← byte_reads]
      constructor
      · rintro ⟨ns, hn, hm⟩
        cases hn with
        | cons h1 h2 => cases hm; exact ⟨⟨_, h1, rfl⟩, _, h2, rfl⟩
      · rintro ⟨⟨m, h1, rfl⟩, ns, h2, rfl⟩
        exact ⟨m :: ns, .cons h1 h2, rfl⟩

theorem primitiveBack_iff (v : Value T) (p : Primitive) : dePrimitive v.der = some p ↔ PrimitiveBack v p := by
  cases v with | mk d c =>
  cases d with
  | composite f =>
    cases f with
    | named fs =>
      simp only [dePrimitive, Value.der, Der.visit, Der.ask, ValueDef.ask, Composite.ask]
      exact ⟨(by intro h; cases h), (by intro h; cases h)⟩
    | unnamed vs =>
      simp only [dePrimitive, Value.der, Der.visit, Der.ask, ValueDef.ask, Composite.ask]
      constructor
      · intro hp
        cases ha : allOf (deNum .u8) (valDers vs) with
        | none => rw [ha] at hp; cases hp
        | some ns =>
          rw [ha] at hp
          simp only [bytes32?] at hp
          split at hp
          · next hl =>
            cases hp
            obtain ⟨h3, h4⟩ := pointwise_forall₂.2 ((allOf_bytes vs _).1 ⟨ns, ha, rfl⟩)
            exact .bytes (b := ⟨_, hl⟩) (h3.trans hl) h4
          · cases hp
      · intro hp
        cases hp with
        | @bytes _ b _ len sub =>
          obtain ⟨ns, h3, h4⟩ := (allOf_bytes vs b.bytes).2 (pointwise_forall₂.1 ⟨len.trans b.len.symm, sub⟩)
          rw [h3]
          simp only [h4, bytes32?, dif_pos b.len]
  | variant x =>
    cases x
    simp only [dePrimitive, Value.der, Der.visit, Der.ask, ValueDef.ask, Variant.ask]
    exact ⟨(by intro h; cases h), (by intro h; cases h)⟩
  | bitSequence b =>
    simp only [dePrimitive, Value.der, Der.visit, Der.ask, ValueDef.ask, bitsReply]
    exact ⟨(by intro h; cases h), (by intro h; cases h)⟩
  | primitive q =>
    have hq : dePrimitive (Value.mk (.primitive q) c).der = dePrimitive (.mk q.ask) := by
      cases q <;> rfl
    rw [hq, dePrimitive_ask]
    constructor
    · intro h
      cases q with
      | i256 b => cases h; exact .i256
      | _ => cases h; exact .prim (by intro b h; cases h)
    · intro h
      cases h with
      | prim h =>
        cases p with
        | i256 b => exact absurd rfl (h b)
        | _ => rfl
      | i256 => rfl

theorem primitiveWrong_iff (v : Value T) (e : DeErr) : dePrimitiveE v.der = .error e ↔ PrimitiveWrong v e := by
  have pr : (Ty.num .u8).Proper := by simp [Ty.Proper]
  rw [C73_primitive]
  simp only [FirstError, NoError, readable_iff pr, C82_error _ pr]
  constructor
  · rintro (⟨vs, h, pre, w, post, h1, h2, h3⟩ | ⟨vs, h, h1, h2, rfl⟩ | ⟨⟨x, h⟩ | ⟨ps, h⟩ | ⟨b, h⟩, u, h1, rfl⟩)
    · exact .part h h1 h2 h3
    · exact .length h h1 h2
    · cases shownAs_unique h1 (.variant h)
      exact .variant h
    · cases shownAs_unique h1 (.named h)
      exact .named h
    · cases shownAs_unique h1 (.bits h)
      exact .bits h
  · intro h
    cases h with
    | part h split fine sub => exact .inl ⟨_, h, _, _, _, split, fine, sub⟩
    | length h fine len => exact .inr (.inl ⟨_, h, fine, len, rfl⟩)
    | variant h => exact .inr (.inr ⟨.inl ⟨_, h⟩, _, .variant h, rfl⟩)
    | named h => exact .inr (.inr ⟨.inr (.inl ⟨_, h⟩), _, .named h, rfl⟩)
    | bits h => exact .inr (.inr ⟨.inr (.inr ⟨_, h⟩), _, .bits h, rfl⟩)

theorem result_iff {A : Type} {r : Except DeErr A} {o : Option A} (h : r.toOption = o) (x : A) : r = .ok x ↔ o = some x := by
  subst h; cases r <;> simp [Except.toOption]

/-! ### C83 -/

/-- C83: `from_value::<Composite>`: what is read, and the error. -/
theorem C83_composite (v : Value T) : (∀ g, deCompositeE v.der = .ok g ↔ CompositeBack v g) ∧ ∀ e, deCompositeE v.der = .error e ↔ CompositeWrong v e :=
  ⟨fun g => (result_iff (deCompositeE_agree _) g).trans (compositeBack_iff v g), compositeWrong_iff v⟩

/-- C83: `from_value::<Variant>`: what is read, and the error. -/
theorem C83_variant (v : Value T) : (∀ x, deVariantE v.der = .ok x ↔ VariantBack v x) ∧ ∀ e, deVariantE v.der = .error e ↔ VariantWrong v e :=
  ⟨fun x => (result_iff (deVariantE_agree _) x).trans (variantBack_iff v x), variantWrong_iff v⟩

/-- C83: `from_value::<Primitive>`: what is read, and the error. -/
theorem C83_primitive (v : Value T) : (∀ p, dePrimitiveE v.der = .ok p ↔ PrimitiveBack v p) ∧ ∀ e, dePrimitiveE v.der = .error e ↔ PrimitiveWrong v e :=
  ⟨fun p => (result_iff (dePrimitiveE_agree _) p).trans (primitiveBack_iff v p), primitiveWrong_iff v⟩

/-- C83: so just one is true, of each of the three types: one thing is read, or there is one error. -/
theorem C83_one (v : Value T) :
    (((∃ g, CompositeBack v g ∧ ∀ g', CompositeBack v g' → g' = g) ∧ ∀ e, ¬ CompositeWrong v e) ∨ ((∃ e, CompositeWrong v e ∧ ∀ e', CompositeWrong v e' → e' = e) ∧ ∀ g, ¬ CompositeBack v g)) ∧
    (((∃ x, VariantBack v x ∧ ∀ x', VariantBack v x' → x' = x) ∧ ∀ e, ¬ VariantWrong v e) ∨ ((∃ e, VariantWrong v e ∧ ∀ e', VariantWrong v e' → e' = e) ∧ ∀ x, ¬ VariantBack v x)) ∧
    (((∃ p, PrimitiveBack v p ∧ ∀ p', PrimitiveBack v p' → p' = p) ∧ ∀ e, ¬ PrimitiveWrong v e) ∨ ((∃ e, PrimitiveWrong v e ∧ ∀ e', PrimitiveWrong v e' → e' = e) ∧ ∀ p, ¬ PrimitiveBack v p)) := by
  simp only [← (C83_composite v).1, ← (C83_composite v).2, ← (C83_variant v).1, ← (C83_variant v).2, ← (C83_primitive v).1, ← (C83_primitive v).2]
  have key : ∀ {A : Type} (r : Except DeErr A), ((∃ g, r = .ok g ∧ ∀ g', r = .ok g' → g' = g) ∧ ∀ e, ¬ r = .error e) ∨ ((∃ e, r = .error e ∧ ∀ e', r = .error e' → e' = e) ∧ ∀ g, ¬ r = .ok g) := by
    intro A r
    cases r with
    | ok g => exact .inl ⟨⟨g, rfl, fun g' h => by cases h; rfl⟩, fun e h => by cases h⟩
    | error e => exact .inr ⟨⟨e, rfl, fun g' h => by cases h; rfl⟩, fun e h => by cases h⟩
  exact ⟨key _, key _, key _⟩

/-! ### C83 is about something -/

/-- A variant in the form in which it is serialized: the last name counts. -/
example : VariantBack (.mk (.composite (.named [("name".toList, Value.char 'X'), ("values".toList, Value.bitSequence [true]), ("name".toList, Value.string "Y".toList)])) ())
    (.mk "Y".toList (.named [("__bitvec__values__".toList, .mk (.composite (.unnamed [.mk (.primitive (.bool true)) ()])) ())])) := by
  refine .named (x := Value.string "Y".toList) (y := Value.bitSequence [true]) ?_ ⟨[_, _], [], rfl, by simp⟩ (.string rfl) ⟨[_], [_], rfl, by decide⟩ (.bits (boolList_unit_iff.2 rfl))
  intro p hp
  simp only [List.mem_cons, List.not_mem_nil, or_false] at hp
  rcases hp with rfl | rfl | rfl
  · exact .inl ⟨rfl, _, .stringOfChar rfl⟩
  · exact .inr ⟨rfl, _, .bits (boolList_unit_iff.2 rfl)⟩
  · exact .inl ⟨rfl, _, .string rfl⟩

/-- A wrong entry is found before an earlier name is missed; the first wrong one counts. -/
example : VariantWrong (Value.namedComposite [("values".toList, Value.unnamedComposite []), ("values".toList, exU 1), ("nam".toList, exU 1)])
    (.invalidType (.num ⟨.u128, 1, by decide, by decide⟩) .composite) := by
  refine .entry (pre := [("values".toList, Value.unnamedComposite [])]) (post := [("nam".toList, exU 1)]) (p := ("values".toList, exU 1)) rfl ?_
    (.values (.prim (p := .u128 ⟨1, by decide⟩) rfl (fun b => ⟨(by intro h; cases h), (by intro h; cases h)⟩) (.u128 (n := ⟨1, by decide⟩) rfl rfl rfl)))
  intro q hq
  simp only [List.mem_singleton] at hq
  subst hq
  exact .inr ⟨rfl, _, .unnamed (ws := []) rfl (by intro i x y hx; cases hx)⟩

/-- An unnamed composite of 32 numbers, signed or not, is a 256 bit number; of 31 it is not. -/
example : ∃ b : Bytes32, b.bytes = List.replicate 32 7 ∧ PrimitiveBack (Value.unnamedComposite (List.replicate 31 (exU 7) ++ [Value.i128 ⟨7, by decide, by decide⟩])) (.u256 b) := by
  refine ⟨⟨List.replicate 32 7, by simp⟩, rfl, .bytes rfl ?_⟩
  intro i w y hw hy
  have hy' : y = 7 := by
    have := List.mem_of_getElem? hy
    simp at this
    exact this
  subst hy'
  have := List.mem_of_getElem? hw
  simp only [List.mem_append, List.mem_replicate, List.mem_singleton] at this
  rcases this with ⟨-, rfl⟩ | rfl <;> rfl
example : PrimitiveWrong (Value.unnamedComposite (List.replicate 31 (exU 7))) (.invalidLength 31 .bytes32) := (C83_primitive _).2 _ |>.1 rfl
example : PrimitiveWrong (Value.unnamedComposite (List.replicate 40 (exU 300))) (.invalidType (.num ⟨.u128, 300, by decide, by decide⟩) (.num .u8)) := (C83_primitive _).2 _ |>.1 rfl
/-- A named composite that starts with `__bitvec__values__` stays one, as a `Composite`. -/
example : CompositeBack (Value.namedComposite [("__bitvec__values__".toList, Value.bool true)]) (.named [("__bitvec__values__".toList, Value.bool true)]) := (C83_composite _).1 _ |>.1 rfl

end SV
