import Verif.Proofs.Serde
/-
Proofs for the deserializing half, and for `Serialize` on values.
-/
namespace SV

variable {T : Type}

/-! ### Serializing numbers -/

theorem firstOk_val (d : Num) (ts : List NumTy) : (firstOk d ts).val = d.val := by
  induction ts with
  | nil => rfl
  | cons t ts ih =>
    rw [firstOk]
    split
    · rename_i x h; exact (ofInt?_eq_some.1 h).2
    · exact ih

/-- The type chosen is the first one in the list that holds the number. -/
theorem firstOk_ty (d : Num) (ts : List NumTy) (t : NumTy) (ht : t ∈ ts) (h : t.Holds d.val) :
    ∃ pre post, ts = pre ++ (firstOk d ts).ty :: post ∧ ∀ t' ∈ pre, ¬ t'.Holds d.val := by
  induction ts with
  | nil => cases ht
  | cons u us ih =>
    rw [firstOk]
    split
    · rename_i x hx
      exact ⟨[], us, by simp [(ofInt?_eq_some.1 hx).1], by simp⟩
    · rename_i hn
      have hn := ofInt?_eq_none.1 hn
      have : t ∈ us := by
        cases ht with
        | head => exact absurd h hn
        | tail _ h => exact h
      obtain ⟨pre, post, h1, h2⟩ := ih this
      refine ⟨u :: pre, post, by rw [List.cons_append, ← h1], ?_⟩
      intro t' ht'
      cases ht' with
      | head => exact hn
      | tail _ h => exact h2 _ h

theorem holds_u128 (n : U128) : NumTy.u128.Holds n.val := by
  have := n.lt
  simp only [NumTy.Holds, NumTy.signed, NumTy.bits]
  constructor
  · exact Int.natCast_nonneg _
  · show (n.val : Int) < 2 ^ 128; omega

theorem holds_i128 (n : I128) : NumTy.i128.Holds n.val := by
  simp only [NumTy.Holds, NumTy.signed, NumTy.bits]
  exact ⟨n.ge, n.lt⟩

/-- In a list of integer types of the same signedness in order of size, the first that holds a number is the smallest. -/
theorem firstOk_smallest (d : Num) (s : Bool) (ts : List NumTy) (hs : ∀ t, t.signed = s ↔ t ∈ ts) (hord : ts.Pairwise (fun a b => a.bits ≤ b.bits)) (t : NumTy)
    (ht : t.signed = s) (h : t.Holds d.val) : (firstOk d ts).ty.signed = s ∧ (firstOk d ts).ty.bits ≤ t.bits := by
  have hm := (hs t).1 ht
  obtain ⟨pre, post, h1, h2⟩ := firstOk_ty d ts t hm h
  revert h1
  generalize (firstOk d ts).ty = r
  intro h1
  subst h1
  refine ⟨(hs _).2 (by simp), ?_⟩
  simp only [List.mem_append, List.mem_cons] at hm
  rcases hm with hm | rfl | hm
  · exact absurd h (h2 _ hm)
  · exact Nat.le_refl _
  · have := (List.pairwise_append.1 hord).2.1
    exact (List.pairwise_cons.1 this).1 _ hm

theorem unsigned_types (t : NumTy) : t.signed = false ↔ t ∈ [NumTy.u8, .u16, .u32, .u64, .u128] := by cases t <;> simp [NumTy.signed]
theorem signed_types (t : NumTy) : t.signed = true ↔ t ∈ [NumTy.i8, .i16, .i32, .i64, .i128] := by cases t <;> simp [NumTy.signed]

theorem serialize_u128 (n : U128) : ∃ m : Num, (Primitive.u128 n).serialize = .num m ∧ m.val = n.val ∧ m.ty.signed = false ∧
    ∀ t : NumTy, t.signed = false → t.Holds n.val → m.ty.bits ≤ t.bits := by
  refine ⟨_, rfl, firstOk_val _ _, ?_, ?_⟩
  · exact (firstOk_smallest _ false _ unsigned_types (by simp [NumTy.bits]) .u128 rfl (holds_u128 n)).1
  · intro t ht h
    exact (firstOk_smallest _ false _ unsigned_types (by simp [NumTy.bits]) t ht h).2

theorem serialize_i128 (n : I128) : ∃ m : Num, (Primitive.i128 n).serialize = .num m ∧ m.val = n.val ∧ m.ty.signed = true ∧
    ∀ t : NumTy, t.signed = true → t.Holds n.val → m.ty.bits ≤ t.bits := by
  refine ⟨_, rfl, firstOk_val _ _, ?_, ?_⟩
  · exact (firstOk_smallest _ true _ signed_types (by simp [NumTy.bits]) .i128 rfl (holds_i128 n)).1
  · intro t ht h
    exact (firstOk_smallest _ true _ signed_types (by simp [NumTy.bits]) t ht h).2

theorem toPrim_u128 (n : U128) {m : Num} (h1 : m.val = n.val) (h2 : m.ty.signed = false) : m.toPrim = .u128 n :=
  repNum_iff.1 (.unsigned h2 h1.symm)

theorem toPrim_i128 (n : I128) {m : Num} (h1 : m.val = n.val) (h2 : m.ty.signed = true) : m.toPrim = .i128 n :=
  repNum_iff.1 (.signed h2 h1.symm)

/-! ### Serializing a value into a value -/

theorem serializeFields_eq (fs : List (Str × Value T)) : serializeFields fs = fs.map (fun p => (.str p.1, p.2.serialize)) := by
  induction fs with
  | nil => rfl
  | cons p r ih => cases p; rw [serializeFields, ih]; rfl

theorem serializeVals_eq (vs : List (Value T)) : serializeVals vs = vs.map Value.serialize := by
  induction vs with
  | nil => rfl
  | cons p r ih => rw [serializeVals, ih]; rfl

theorem byte_tuple (bs : List UInt8) : toValues (bs.map (fun x => .num (.ofU8 x))) = .ok (byteVals bs) := by
  rw [toValues_ok, byteVals]
  induction bs with
  | nil => exact .nil
  | cons b bs ih =>
    refine .cons ?_ ih
    rw [Ser.toValue, toPrim_u128 (m := .ofU8 b) (.ofU8 b) (by simp [Num.ofU8]) (by simp [Num.ofU8, NumTy.signed])]
    simp only [Value.primitive, Value.u128]

theorem forall₂_map_left {A B C : Type} {R : B → C → Prop} {f : A → B} {as : List A} {cs : List C} :
    List.Forall₂ R (as.map f) cs ↔ List.Forall₂ (fun a c => R (f a) c) as cs := by
  simp [List.forall₂_map_left_iff]

theorem toEntries_str {fs : List (Str × Value T)} {gs : List (Str × Value Unit)} :
    toEntries (fs.map (fun p => (.str p.1, p.2.serialize))) = .ok gs ↔ List.Forall₂ (fun x y => x.1 = y.1 ∧ x.2.serialize.toValue = .ok y.2) fs gs := by
  rw [toEntries_ok, forall₂_map_left]
  have : ∀ (x : Str × Value T) (y : Str × Value Unit), ((∃ k, (Ser.str x.1).toValue = .ok k ∧ keyOf k = .ok y.1) ∧ x.2.serialize.toValue = .ok y.2) ↔
      (x.1 = y.1 ∧ x.2.serialize.toValue = .ok y.2) := by
    intro x y
    refine and_congr ?_ Iff.rfl
    constructor
    · rintro ⟨k, h1, h2⟩; cases h1; simpa [keyOf, Value.string, Value.value] using h2
    · intro h; exact ⟨_, rfl, by simp [keyOf, Value.string, Value.value, h]⟩
  simp only [this]

theorem forall₂_names {A B : Type} {R : A → B → Prop} {fs : List (Str × A)} {gs : List (Str × B)} :
    List.Forall₂ (fun x y => x.1 = y.1 ∧ R x.2 y.2) fs gs ↔
    fs.map (fun p => p.1) = gs.map (fun p => p.1) ∧ ∀ (i : Nat) (x : Str × A) (y : Str × B), fs[i]? = some x → gs[i]? = some y → R x.2 y.2 := by
  rw [← pointwise_forall₂]
  constructor
  · rintro ⟨h1, h2⟩
    refine ⟨?_, fun i x y hx hy => (h2 i x y hx hy).2⟩
    apply List.ext_getElem?
    intro i
    simp only [List.getElem?_map]
    cases hx : fs[i]? with
    | none =>
      have : gs[i]? = none := by rw [List.getElem?_eq_none_iff] at hx ⊢; omega
      rw [this]; rfl
    | some x =>
      cases hy : gs[i]? with
      | none => rw [List.getElem?_eq_none_iff] at hy; have := (List.getElem?_eq_some_iff.1 hx).1; omega
      | some y => simp [(h2 i x y hx hy).1]
  · rintro ⟨h1, h2⟩
    refine ⟨by simpa using congrArg List.length h1, fun i x y hx hy => ⟨?_, h2 i x y hx hy⟩⟩
    have := congrArg (fun l => l[i]?) h1
    simpa [hx, hy] using this

theorem boolList_iff {vs : List (Value Unit)} {bs : List Bool} : BoolList vs bs ↔ vs = bs.map Value.bool := by
  have : BoolList vs bs ↔ List.Forall₂ (fun v b => ∃ c, v = .mk (.primitive (.bool b)) c) vs bs := by
    rw [← pointwise_forall₂, BoolList]
  rw [this]
  clear this
  induction bs generalizing vs with
  | nil => simp
  | cons b bs ih =>
    cases vs with
    | nil => simp
    | cons v vs =>
      refine List.forall₂_cons.trans ((and_congr_right fun _ => ih).trans ?_)
      simp only [List.map_cons, List.cons.injEq]
      refine and_congr ?_ Iff.rfl
      constructor
      · rintro ⟨_, rfl⟩; rfl
      · rintro rfl; exact ⟨(), rfl⟩

theorem toValues_bools (bs : List Bool) : toValues (bs.map .bool) = .ok (bs.map Value.bool) := by
  rw [toValues_ok]
  induction bs with
  | nil => exact .nil
  | cons b bs ih => exact .cons rfl ih

theorem serialize_prim_ok {p : Primitive} (h : ∀ b, p ≠ .u256 b ∧ p ≠ .i256 b) : p.serialize.toValue = .ok (.mk (.primitive p) ()) := by
  cases p with
  | bool b => rfl
  | char b => rfl
  | string b => rfl
  | u128 n =>
    obtain ⟨m, h1, h2, h3, _⟩ := serialize_u128 n
    rw [h1, Ser.toValue, toPrim_u128 n h2 h3]; rfl
  | i128 n =>
    obtain ⟨m, h1, h2, h3, _⟩ := serialize_i128 n
    rw [h1, Ser.toValue, toPrim_i128 n h2 h3]; rfl
  | u256 b => exact absurd rfl (h b).1
  | i256 b => exact absurd rfl (h b).2

theorem serialize_bytes (b : Bytes32) : (Primitive.u256 b).serialize.toValue = .ok (.mk (.composite (.unnamed (byteVals b.bytes))) ()) ∧
    (Primitive.i256 b).serialize.toValue = .ok (.mk (.composite (.unnamed (byteVals b.bytes))) ()) := by
  simp only [Primitive.serialize]
  rw [Ser.toValue, byte_tuple]
  exact ⟨rfl, rfl⟩

theorem serialize_bits (b : List Bool) : (serializeBits b).toValue =
    .ok (.mk (.composite (.named [(bitIdent, .mk (.composite (.unnamed (b.map Value.bool))) ())])) ()) := by
  rw [serializeBits, Ser.toValue, toEntries, toEntries, Ser.toValue, Ser.toValue, toValues_bools]
  rfl

theorem serialize_unnamed (vs : List (Value T)) (w : Value Unit) :
    (Composite.unnamed vs).serialize.toValue = .ok w ↔ ∃ ws, List.Forall₂ (fun x y => x.serialize.toValue = .ok y) vs ws ∧ w = .mk (.composite (.unnamed ws)) () := by
  rw [Composite.serialize, Ser.toValue, serializeVals_eq]
  simp only [bind_ok, toValues_ok, forall₂_map_left, Value.unnamedComposite, Composite.mkUnnamed, Except.ok.injEq]
  simp only [eq_comm]

theorem serialize_named (fs : List (Str × Value T)) (w : Value Unit) :
    (Composite.named fs).serialize.toValue = .ok w ↔
    ∃ gs, List.Forall₂ (fun x y => x.1 = y.1 ∧ x.2.serialize.toValue = .ok y.2) fs gs ∧ w = .mk (.composite (.named gs)) () := by
  rw [Composite.serialize, Ser.toValue, serializeFields_eq]
  have hm : ∀ gs : List (Str × Value Unit), gs.map (fun p => (p.1, p.2)) = gs := by simp
  simp only [bind_ok, toEntries_str, Value.namedComposite, Composite.mkNamed, Except.ok.injEq, hm]
  constructor
  · rintro ⟨a, h1, h2⟩; exact ⟨a, h1, h2.symm⟩
  · rintro ⟨a, h1, h2⟩; exact ⟨a, h1, h2.symm⟩

theorem serialize_variant (n : Str) (c : Composite T) (w : Value Unit) :
    (Variant.mk n c).serialize.toValue = .ok w ↔ ∃ u, c.serialize.toValue = .ok u ∧
      w = .mk (.composite (.named [("name".toList, .mk (.primitive (.string n)) ()), ("values".toList, u)])) () := by
  rw [Variant.serialize, Ser.toValue, toEntries, toEntries, toEntries]
  simp only [bind_ok]
  constructor
  · rintro ⟨_, ⟨_, h1, _, h2, _, h3, _, ⟨_, h4, _, h5, u, h6, _, h7, h8⟩, h9⟩, h10⟩
    cases h1; cases h2; cases h3; cases h4; cases h5; cases h7; cases h8; cases h9; cases h10
    exact ⟨u, h6, rfl⟩
  · rintro ⟨u, h, rfl⟩
    exact ⟨_, ⟨_, rfl, _, rfl, _, rfl, _, ⟨_, rfl, _, rfl, u, h, _, rfl, rfl⟩, rfl⟩, rfl⟩

theorem forall₂_of_mem {A B : Type} {R : A → B → Prop} {as : List A} (h : ∀ a ∈ as, ∃ b, R a b) : ∃ bs, List.Forall₂ R as bs := by
  induction as with
  | nil => exact ⟨[], .nil⟩
  | cons a as ih =>
    obtain ⟨b, hb⟩ := h a (by simp)
    obtain ⟨bs, hbs⟩ := ih fun a ha => h a (by simp [ha])
    exact ⟨b :: bs, .cons hb hbs⟩

theorem forall₂_named_of_mem {A B : Type} {R : A → B → Prop} {fs : List (Str × A)} (h : ∀ p ∈ fs, ∃ b, R p.2 b) :
    ∃ gs : List (Str × B), List.Forall₂ (fun x y => x.1 = y.1 ∧ R x.2 y.2) fs gs :=
  forall₂_of_mem fun p hp => by
    obtain ⟨b, hb⟩ := h p hp
    exact ⟨(p.1, b), rfl, hb⟩

/-- Serializing a value into a value always succeeds. -/
theorem serialize_total (v : Value T) : ∃ w, v.serialize.toValue = .ok w := by
  induction v using Value.ind with
  | named fs c ih =>
    obtain ⟨gs, h⟩ := forall₂_named_of_mem (R := fun (x : Value T) y => x.serialize.toValue = .ok y) ih
    exact ⟨_, (serialize_named fs _).2 ⟨gs, h, rfl⟩⟩
  | unnamed vs c ih =>
    obtain ⟨gs, h⟩ := forall₂_of_mem ih
    exact ⟨_, (serialize_unnamed vs _).2 ⟨gs, h, rfl⟩⟩
  | vnamed n fs c ih =>
    obtain ⟨gs, h⟩ := forall₂_named_of_mem (R := fun (x : Value T) y => x.serialize.toValue = .ok y) ih
    exact ⟨_, (serialize_variant n _ _).2 ⟨_, (serialize_named fs _).2 ⟨gs, h, rfl⟩, rfl⟩⟩
  | vunnamed n vs c ih =>
    obtain ⟨gs, h⟩ := forall₂_of_mem ih
    exact ⟨_, (serialize_variant n _ _).2 ⟨_, (serialize_unnamed vs _).2 ⟨gs, h, rfl⟩, rfl⟩⟩
  | bits b c => exact ⟨_, serialize_bits b⟩
  | prim p c =>
    by_cases h : ∀ b, p ≠ .u256 b ∧ p ≠ .i256 b
    · exact ⟨_, serialize_prim_ok h⟩
    · cases p with
      | u256 b => exact ⟨_, (serialize_bytes b).1⟩
      | i256 b => exact ⟨_, (serialize_bytes b).2⟩
      | _ => simp at h

theorem flat_serialize {v : Value T} {w : Value Unit} (h : Flat v w) : v.serialize.toValue = .ok w := by
  induction h with
  | prim h => exact serialize_prim_ok h
  | u256 h => rw [byteList_iff.1 h]; exact (serialize_bytes _).1
  | i256 h => rw [byteList_iff.1 h]; exact (serialize_bytes _).2
  | bits h => rw [boolList_iff.1 h]; exact serialize_bits _
  | named names sub ih => exact (serialize_named _ _).2 ⟨_, (forall₂_names (R := fun (x : Value T) y => x.serialize.toValue = .ok y)).2 ⟨names, ih⟩, rfl⟩
  | unnamed len sub ih => exact (serialize_unnamed _ _).2 ⟨_, pointwise_forall₂.1 ⟨len, ih⟩, rfl⟩
  | variant h ih => exact (serialize_variant _ _ _).2 ⟨_, ih, rfl⟩

/-- There is a flat form of each value. -/
theorem flat_total (v : Value T) : ∃ w, Flat v w := by
  induction v using Value.ind with
  | named fs c ih =>
    obtain ⟨gs, h⟩ := forall₂_named_of_mem (R := fun (x : Value T) y => Flat x y) ih
    obtain ⟨h1, h2⟩ := (forall₂_names (R := fun (x : Value T) y => Flat x y)).1 h
    exact ⟨_, .named h1 h2⟩
  | unnamed vs c ih =>
    obtain ⟨gs, h⟩ := forall₂_of_mem ih
    obtain ⟨h1, h2⟩ := pointwise_forall₂.2 h
    exact ⟨_, .unnamed h1 h2⟩
  | vnamed n fs c ih =>
    obtain ⟨gs, h⟩ := forall₂_named_of_mem (R := fun (x : Value T) y => Flat x y) ih
    obtain ⟨h1, h2⟩ := (forall₂_names (R := fun (x : Value T) y => Flat x y)).1 h
    exact ⟨_, .variant (d := c) (.named h1 h2)⟩
  | vunnamed n vs c ih =>
    obtain ⟨gs, h⟩ := forall₂_of_mem ih
    obtain ⟨h1, h2⟩ := pointwise_forall₂.2 h
    exact ⟨_, .variant (d := c) (.unnamed h1 h2)⟩
  | bits b c => exact ⟨_, .bits (boolList_iff.2 rfl)⟩
  | prim p c =>
    by_cases h : ∀ b, p ≠ .u256 b ∧ p ≠ .i256 b
    · exact ⟨_, .prim h⟩
    · cases p with
      | u256 b => exact ⟨_, .u256 (byteList_iff.2 rfl)⟩
      | i256 b => exact ⟨_, .i256 (byteList_iff.2 rfl)⟩
      | _ => simp at h

theorem serialize_flat {v : Value T} {w : Value Unit} : v.serialize.toValue = .ok w ↔ Flat v w := by
  constructor
  · intro h
    obtain ⟨w', h'⟩ := flat_total v
    have := flat_serialize h'
    rw [h] at this
    cases this
    exact h'
  · exact flat_serialize

/-! ### Reading values as values -/

theorem valDers_eq (vs : List (Value T)) : valDers vs = vs.map Value.der := by
  induction vs with
  | nil => rfl
  | cons p r ih => rw [valDers, ih]; rfl

theorem fieldVals_eq (fs : List (Str × Value T)) : fieldVals fs = fs.map (fun p => p.2.der) := by
  induction fs with
  | nil => rfl
  | cons p r ih => cases p; rw [fieldVals, ih]; rfl

theorem fieldDers_eq (fs : List (Str × Value T)) : fieldDers fs = fs.map (fun p => (strDer p.1, p.2.der)) := by
  induction fs with
  | nil => rfl
  | cons p r ih => cases p; rw [fieldDers, ih]; rfl

theorem deValue_der (d : ValueDef T) (c : T) (w : Value Unit) : deValue (Value.der (.mk d c)) = some w ↔ ∃ x, deDef (d.ask .any) = some x ∧ w = .mk x () := by
  rw [Value.der, deValue]
  cases h : deDef (d.ask .any) with
  | none => simp
  | some x => simp [eq_comm]

theorem deValues_iff {ds : List Der} {vs : List (Value Unit)} : deValues ds = some vs ↔ List.Forall₂ (fun d v => deValue d = some v) ds vs := by
  induction ds generalizing vs with
  | nil => cases vs <;> simp [deValues]
  | cons d ds ih =>
    rw [deValues]
    cases h : deValue d with
    | none =>
      constructor
      · intro h; cases h
      · intro h'; cases h' with | cons h1 h2 => rw [h] at h1; cases h1
    | some v =>
      cases h2 : deValues ds with
      | none =>
        constructor
        · intro h; cases h
        · intro h'; cases h' with | cons h1 h3 => rw [ih.2 h3] at h2; cases h2
      | some ws =>
        constructor
        · intro h3; cases h3; exact .cons h (ih.1 h2)
        · intro h3
          cases h3 with
          | cons h4 h5 => rw [h] at h4; cases h4; rw [ih.2 h5] at h2; cases h2; rfl

theorem deEntries_iff {ds : List (Der × Der)} {vs : List (Str × Value Unit)} :
    deEntries ds = some vs ↔ List.Forall₂ (fun d v => deString d.1 = some v.1 ∧ deValue d.2 = some v.2) ds vs := by
  induction ds generalizing vs with
  | nil => cases vs <;> simp [deEntries]
  | cons d ds ih =>
    cases d with | mk k d =>
    rw [deEntries]
    cases h0 : deString k with
    | none =>
      constructor
      · intro h; cases h
      · intro h'; cases h' with | cons h1 h2 => rw [h0] at h1; cases h1.1
    | some s =>
      cases h : deValue d with
      | none =>
        constructor
        · intro h; cases h
        · intro h'; cases h' with | cons h1 h2 => rw [h] at h1; cases h1.2
      | some v =>
        cases h2 : deEntries ds with
        | none =>
          constructor
          · intro h; cases h
          · intro h'; cases h' with | cons h1 h3 => rw [ih.2 h3] at h2; cases h2
        | some ws =>
          constructor
          · intro h3; cases h3; exact .cons ⟨h0, h⟩ (ih.1 h2)
          · intro h3
            cases h3 with
            | @cons _ b _ _ h4 h5 =>
              cases b
              simp only [h0, h, Option.some.injEq] at h4
              obtain ⟨rfl, rfl⟩ := h4
              rw [ih.2 h5] at h2; cases h2; rfl

@[simp] theorem deString_strDer (s : Str) : deString (strDer s) = some s := rfl
@[simp] theorem deBool_boolDer (b : Bool) : deBool (boolDer b) = some b := rfl

theorem deValues_vals {vs : List (Value T)} {ws : List (Value Unit)} :
    deValues (valDers vs) = some ws ↔ List.Forall₂ (fun x y => deValue x.der = some y) vs ws := by
  rw [valDers_eq, deValues_iff, forall₂_map_left]

theorem deEntries_fields {fs : List (Str × Value T)} {gs : List (Str × Value Unit)} :
    deEntries (fieldDers fs) = some gs ↔ List.Forall₂ (fun x y => x.1 = y.1 ∧ deValue x.2.der = some y.2) fs gs := by
  rw [fieldDers_eq, deEntries_iff, forall₂_map_left]
  simp

theorem allOf_iff {A B : Type} {f : A → Option B} {as : List A} {bs : List B} : allOf f as = some bs ↔ List.Forall₂ (fun a b => f a = some b) as bs := by
  induction as generalizing bs with
  | nil => cases bs <;> simp [allOf]
  | cons d ds ih =>
    rw [allOf]
    cases h : f d with
    | none =>
      constructor
      · intro h; cases h
      · intro h'; cases h' with | cons h1 h2 => rw [h] at h1; cases h1
    | some v =>
      cases h2 : allOf f ds with
      | none =>
        constructor
        · intro h; cases h
        · intro h'; cases h' with | cons h1 h3 => rw [ih.2 h3] at h2; cases h2
      | some ws =>
        constructor
        · intro h3; cases h3; exact .cons h (ih.1 h2)
        · intro h3
          cases h3 with
          | cons h4 h5 => rw [h] at h4; cases h4; rw [ih.2 h5] at h2; cases h2; rfl

theorem allOf_bools (bs : List Bool) : allOf deBool (bs.map boolDer) = some bs := by
  rw [allOf_iff, forall₂_map_left]
  induction bs with
  | nil => exact .nil
  | cons b bs ih => exact .cons rfl ih

/-- Reading a value as a `bool`. -/
theorem deBool_der (v : Value T) (b : Bool) : deBool v.der = some b ↔ ∃ c, v = .mk (.primitive (.bool b)) c := by
  cases v with | mk d c =>
  cases d with
  | composite f =>
    cases f with
    | named fs => simp [Value.der, deBool, Der.visit, Der.ask, ValueDef.ask, Composite.ask]
    | unnamed vs => simp [Value.der, deBool, Der.visit, Der.ask, ValueDef.ask, Composite.ask]
  | variant v => cases v; simp [Value.der, deBool, Der.visit, Der.ask, ValueDef.ask, Variant.ask]
  | bitSequence b => simp [Value.der, deBool, Der.visit, Der.ask, ValueDef.ask, bitsReply]
  | primitive p => cases p <;> simp [Value.der, deBool, Der.visit, Der.ask, ValueDef.ask, Primitive.ask, Primitive.any]

/-- Reading a value as a sequence: composites of both kinds, and the fields of variants. -/
theorem seq_der (v : Value T) : (∃ f, v.fields? = some f ∧ v.der.visit .seq = .seq false (f.vals.map Value.der)) ∨
    (v.fields? = none ∧ ∀ c l, v.der.visit .seq ≠ .seq c l) := by
  cases v with | mk d c =>
  cases d with
  | composite f =>
    left
    cases f with
    | named fs => exact ⟨_, rfl, by simp [Value.der, Der.visit, Der.ask, ValueDef.ask, Composite.ask, fieldVals_eq, Composite.vals, Function.comp_def]⟩
    | unnamed vs => exact ⟨_, rfl, by simp [Value.der, Der.visit, Der.ask, ValueDef.ask, Composite.ask, valDers_eq, Composite.vals]⟩
  | variant v =>
    left
    cases v with | mk n f =>
    cases f with
    | named fs => exact ⟨_, rfl, by simp [Value.der, Der.visit, Der.ask, ValueDef.ask, Variant.ask, Composite.ask, fieldVals_eq, Composite.vals, Function.comp_def]⟩
    | unnamed vs => exact ⟨_, rfl, by simp [Value.der, Der.visit, Der.ask, ValueDef.ask, Variant.ask, Composite.ask, valDers_eq, Composite.vals]⟩
  | bitSequence b => right; exact ⟨rfl, by simp [Value.der, Der.visit, Der.ask, ValueDef.ask]⟩
  | primitive p => right; refine ⟨rfl, ?_⟩; cases p <;> simp [Value.der, Der.visit, Der.ask, ValueDef.ask, Primitive.ask, Primitive.any]

theorem deVec_iff {A : Type} (f : Der → Option A) (v : Value T) (as : List A) :
    deVec f v.der = some as ↔ ∃ c, v.fields? = some c ∧ List.Forall₂ (fun x a => f x.der = some a) c.vals as := by
  unfold deVec
  rcases seq_der v with ⟨c, h1, h2⟩ | ⟨h1, h2⟩
  · rw [h2]
    simp only [h1, allOf_iff, forall₂_map_left, Option.some.injEq, exists_eq_left']
  · simp only [h1]
    constructor
    · intro h
      revert h
      generalize v.der.visit .seq = q at h2
      cases q <;> intro h <;> cases h
    · rintro ⟨c, h, _⟩; cases h

theorem deBools_iff (v : Value T) (bs : List Bool) : deVec deBool v.der = some bs ↔ ∃ c, v.fields? = some c ∧ BoolList c.vals bs := by
  rw [deVec_iff]
  refine exists_congr fun c => and_congr_right fun _ => ?_
  rw [BoolList, pointwise_forall₂ (R := fun (v : Value T) b => ∃ c, v = .mk (.primitive (.bool b)) c)]
  exact ⟨fun h => h.imp fun a b => (deBool_der a b).1, fun h => h.imp fun a b => (deBool_der a b).2⟩

theorem deDef_fields {fs : List (Str × Value T)} {x : ValueDef Unit} : deDef (.map false (fieldDers fs)) = some x ↔
    (∃ gs, (∀ p, fs.head? = some p → p.1 ≠ bitIdent) ∧ List.Forall₂ (fun x y => x.1 = y.1 ∧ deValue x.2.der = some y.2) fs gs ∧ x = .composite (.named gs)) ∨
    (∃ v r f bs, fs = (bitIdent, v) :: r ∧ v.fields? = some f ∧ BoolList f.vals bs ∧ x = .bitSequence bs) := by
  cases fs with
  | nil =>
    rw [fieldDers, deDef]
    constructor
    · intro h; cases h; exact .inl ⟨[], by simp, .nil, rfl⟩
    · rintro (⟨gs, _, h, rfl⟩ | ⟨v, r, f, bs, h, _⟩)
      · cases h; rfl
      · cases h
  | cons p r =>
    cases p with | mk k v =>
    rw [fieldDers, deDef]
    simp only [deString_strDer]
    by_cases hk : k = bitIdent
    · subst hk
      simp only [if_true]
      constructor
      · intro h
        right
        cases hb : deVec deBool v.der with
        | none => rw [hb] at h; cases h
        | some bs =>
          rw [hb] at h
          obtain ⟨c, h1, h2⟩ := (deBools_iff _ _).1 hb
          simp only [Bool.false_eq_true, false_and, if_false] at h
          cases h
          exact ⟨v, r, c, bs, rfl, h1, h2, rfl⟩
      · rintro (⟨gs, h, _⟩ | ⟨v', r', f, bs, h1, h2, h3, rfl⟩)
        · exact absurd rfl (h _ rfl)
        · cases h1
          rw [(deBools_iff _ _).2 ⟨f, h2, h3⟩]
          simp
    · simp only [if_neg hk]
      constructor
      · intro h
        left
        cases hv : deValue v.der with
        | none => rw [hv] at h; cases h
        | some w =>
          rw [hv] at h
          cases he : deEntries (fieldDers r) with
          | none => rw [he] at h; cases h
          | some es =>
            rw [he] at h
            cases h
            refine ⟨_, ?_, .cons ⟨rfl, hv⟩ (deEntries_fields.1 he), rfl⟩
            intro p hp
            cases hp
            exact hk
      · rintro (⟨gs, _, h, rfl⟩ | ⟨v', r', f, bs, h1, h2, h3, rfl⟩)
        · cases h with
          | @cons _ b _ _ h1 h2 =>
            cases b
            simp only at h1
            obtain ⟨rfl, h1⟩ := h1
            simp only [h1, deEntries_fields.2 h2]
        · cases h1; exact absurd rfl hk

theorem deComp_fields {fs : List (Str × Value T)} {x : Composite Unit} : deComposite (.mk (Composite.ask (.named fs))) = some x ↔
    ∃ gs, List.Forall₂ (fun x y => x.1 = y.1 ∧ deValue x.2.der = some y.2) fs gs ∧ x = .named gs := by
  rw [deComposite, Composite.ask]
  simp only
  rw [deComp]
  constructor
  · intro h
    cases he : deEntries (fieldDers fs) with
    | none => rw [he] at h; cases h
    | some es => rw [he] at h; cases h; exact ⟨_, deEntries_fields.1 he, rfl⟩
  · rintro ⟨gs, h, rfl⟩
    rw [deEntries_fields.2 h]

theorem deComp_vals {vs : List (Value T)} {x : Composite Unit} : deComposite (.mk (Composite.ask (.unnamed vs))) = some x ↔
    ∃ gs, List.Forall₂ (fun x y => deValue x.der = some y) vs gs ∧ x = .unnamed gs := by
  rw [deComposite, Composite.ask]
  simp only
  rw [deComp]
  constructor
  · intro h
    cases he : deValues (valDers vs) with
    | none => rw [he] at h; cases h
    | some es => rw [he] at h; cases h; exact ⟨_, deValues_vals.1 he, rfl⟩
  · rintro ⟨gs, h, rfl⟩
    rw [deValues_vals.2 h]

theorem deValue_variant (n : Str) (f : Composite T) (c : T) (w : Value Unit) :
    deValue (Value.der (.mk (.variant (.mk n f)) c)) = some w ↔ ∃ g, deComposite (.mk f.ask) = some g ∧ w = .mk (.variant (.mk n g)) () := by
  rw [deValue_der]
  simp only [ValueDef.ask, Variant.ask, deDef, deString_strDer]
  constructor
  · rintro ⟨x, h, rfl⟩
    split at h
    · cases h
    · rename_i g hg; cases h; exact ⟨g, hg, rfl⟩
  · rintro ⟨g, h, rfl⟩
    rw [h]
    exact ⟨_, rfl, rfl⟩

theorem back_sound {v : Value T} {w : Value Unit} (h : Back v w) : deValue v.der = some w := by
  induction h with
  | @prim p c h =>
    rw [deValue_der]
    refine ⟨_, ?_, rfl⟩
    cases p with
    | bool b => rfl
    | char b => rfl
    | string b => rfl
    | u128 n => simp only [ValueDef.ask, Primitive.ask, Primitive.any, deDef]; rw [toPrim_u128 n rfl rfl]
    | i128 n => simp only [ValueDef.ask, Primitive.ask, Primitive.any, deDef]; rw [toPrim_i128 n rfl rfl]
    | u256 b => exact absurd rfl (h b).1
    | i256 b => exact absurd rfl (h b).2
  | u256 h => rw [byteList_iff.1 h]; rfl
  | i256 h => rw [byteList_iff.1 h]; rfl
  | @bits b c =>
    rw [deValue_der]
    refine ⟨_, ?_, rfl⟩
    simp only [ValueDef.ask, bitsReply]
    rw [deDef]
    simp only [deString_strDer, if_true]
    have : deVec deBool (boolsDer b) = some b := by
      simp only [deVec, boolsDer, Der.visit, Der.ask, allOf_bools]
    rw [this]
    simp
  | named first names sub ih =>
    rw [deValue_der]
    exact ⟨_, deDef_fields.2 (.inl ⟨_, first, (forall₂_names (R := fun (x : Value T) y => deValue x.der = some y)).2 ⟨names, ih⟩, rfl⟩), rfl⟩
  | bitsLike fields bools =>
    rw [deValue_der]
    exact ⟨_, deDef_fields.2 (.inr ⟨_, _, _, _, rfl, fields, bools, rfl⟩), rfl⟩
  | unnamed len sub ih =>
    rw [deValue_der]
    refine ⟨_, ?_, rfl⟩
    simp only [ValueDef.ask, Composite.ask, deDef]
    rw [deValues_vals.2 (pointwise_forall₂.1 ⟨len, ih⟩)]
  | variantNamed names sub ih =>
    exact (deValue_variant _ _ _ _).2 ⟨_, deComp_fields.2 ⟨_, (forall₂_names (R := fun (x : Value T) y => deValue x.der = some y)).2 ⟨names, ih⟩, rfl⟩, rfl⟩
  | variantUnnamed len sub ih =>
    exact (deValue_variant _ _ _ _).2 ⟨_, deComp_vals.2 ⟨_, pointwise_forall₂.1 ⟨len, ih⟩, rfl⟩, rfl⟩

theorem forall₂_imp_named {A B : Type} {R S : A → B → Prop} {fs : List (Str × A)} {gs : List (Str × B)}
    (h : List.Forall₂ (fun x y => x.1 = y.1 ∧ R x.2 y.2) fs gs) (f : ∀ p ∈ fs, ∀ b, R p.2 b → S p.2 b) :
    List.Forall₂ (fun x y => x.1 = y.1 ∧ S x.2 y.2) fs gs :=
  forall₂_imp_mem h fun a ha _ hb => ⟨hb.1, f a ha _ hb.2⟩

theorem back_complete (v : Value T) : ∀ w, deValue v.der = some w → Back v w := by
  induction v using Value.ind with
  | named fs c ih =>
    intro w h
    rw [deValue_der] at h
    obtain ⟨x, h, rfl⟩ := h
    rcases deDef_fields.1 h with ⟨gs, h1, h2, rfl⟩ | ⟨v, r, f, bs, rfl, h1, h2, rfl⟩
    · obtain ⟨a, b⟩ := (forall₂_names (R := fun (x : Value T) y => Back x y)).1 (forall₂_imp_named (R := fun (x : Value T) y => deValue x.der = some y) h2 ih)
      exact .named h1 a b
    · exact .bitsLike h1 h2
  | unnamed vs c ih =>
    intro w h
    rw [deValue_der] at h
    obtain ⟨x, h, rfl⟩ := h
    simp only [ValueDef.ask, Composite.ask, deDef] at h
    split at h
    · rename_i ws hw
      cases h
      obtain ⟨a, b⟩ := pointwise_forall₂.2 (forall₂_imp_mem (deValues_vals.1 hw) ih)
      exact .unnamed a b
    · cases h
  | vnamed n fs c ih =>
    intro w h
    obtain ⟨g, h', rfl⟩ := (deValue_variant _ _ _ _).1 h
    clear h
    obtain ⟨gs, h, rfl⟩ := deComp_fields.1 h'
    obtain ⟨a, b⟩ := (forall₂_names (R := fun (x : Value T) y => Back x y)).1 (forall₂_imp_named (R := fun (x : Value T) y => deValue x.der = some y) h ih)
    exact .variantNamed a b
  | vunnamed n vs c ih =>
    intro w h
    obtain ⟨g, h', rfl⟩ := (deValue_variant _ _ _ _).1 h
    clear h
    obtain ⟨gs, h, rfl⟩ := deComp_vals.1 h'
    obtain ⟨a, b⟩ := pointwise_forall₂.2 (forall₂_imp_mem h ih)
    exact .variantUnnamed a b
  | bits b c =>
    intro w h
    have := back_sound (Back.bits (b := b) (c := c))
    rw [h] at this
    cases this
    exact .bits
  | prim p c =>
    intro w h
    by_cases hp : ∀ b, p ≠ .u256 b ∧ p ≠ .i256 b
    · have := back_sound (Back.prim (c := c) hp)
      rw [h] at this
      cases this
      exact .prim hp
    · cases p with
      | u256 b => cases h; exact .u256 (byteList_iff.2 rfl)
      | i256 b => cases h; exact .i256 (byteList_iff.2 rfl)
      | _ => simp at hp

theorem back_iff {v : Value T} {w : Value Unit} : deValue v.der = some w ↔ Back v w := ⟨back_complete v w, back_sound⟩

end SV
