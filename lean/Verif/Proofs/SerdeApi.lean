import Verif.Proofs.De
/-
Proofs about reading values as data: values as they were, numbers, options, newtypes, structs.
-/
namespace SV

variable {T : Type}

/-! ### Values read as values -/

theorem forall₂_map_right_self {A B : Type} {R : A → B → Prop} {f : A → B} {as : List A} (h : ∀ a ∈ as, R a (f a)) : List.Forall₂ R as (as.map f) := by
  induction as with
  | nil => exact .nil
  | cons a as ih => exact .cons (h a (by simp)) (ih fun b hb => h b (by simp [hb]))

theorem forall₂_map_right_mem {A B : Type} {R : A → B → Prop} {f : A → B} {as : List A} (h : List.Forall₂ R as (as.map f)) : ∀ a ∈ as, R a (f a) := by
  induction as with
  | nil => simp
  | cons a as ih =>
    cases h with
    | cons h1 h2 =>
      intro b hb
      cases hb with
      | head => exact h1
      | tail _ hb => exact ih h2 b hb

theorem removeContext_named (fs : List (Str × Value T)) (c : T) :
    (Value.mk (.composite (.named fs)) c).removeContext = .mk (.composite (.named (fs.map (fun p => (p.1, p.2.removeContext))))) () := by
  simp [Value.removeContext, Value.mapContext]

theorem removeContext_unnamed (vs : List (Value T)) (c : T) :
    (Value.mk (.composite (.unnamed vs)) c).removeContext = .mk (.composite (.unnamed (vs.map Value.removeContext))) () := by
  simp [Value.removeContext, Value.mapContext]

theorem removeContext_vnamed (n : Str) (fs : List (Str × Value T)) (c : T) :
    (Value.mk (.variant (.mk n (.named fs))) c).removeContext = .mk (.variant (.mk n (.named (fs.map (fun p => (p.1, p.2.removeContext)))))) () := by
  simp [Value.removeContext, Value.mapContext]

theorem removeContext_vunnamed (n : Str) (vs : List (Value T)) (c : T) :
    (Value.mk (.variant (.mk n (.unnamed vs))) c).removeContext = .mk (.variant (.mk n (.unnamed (vs.map Value.removeContext)))) () := by
  simp [Value.removeContext, Value.mapContext]

theorem removeContext_prim (p : Primitive) (c : T) : (Value.mk (.primitive p) c).removeContext = .mk (.primitive p) () := rfl
theorem removeContext_bits (b : List Bool) (c : T) : (Value.mk (.bitSequence b) c).removeContext = .mk (.bitSequence b) () := rfl

theorem safe_back {v : Value T} (h : SerdeSafe v) : Back v v.removeContext := by
  induction h with
  | prim h => exact .prim h
  | bits => exact .bits
  | @named fs c first sub ih =>
    rw [removeContext_named]
    obtain ⟨h1, h2⟩ := forall₂_names (R := fun (x : Value T) y => Back x y).1
      (forall₂_map_right_self (as := fs) (f := fun p => (p.1, p.2.removeContext)) (R := fun x y => x.1 = y.1 ∧ Back x.2 y.2) fun a ha => ⟨rfl, ih a ha⟩)
    exact .named first h1 h2
  | @unnamed vs c sub ih =>
    rw [removeContext_unnamed]
    obtain ⟨h1, h2⟩ := pointwise_forall₂.2 (forall₂_map_right_self (R := fun (x : Value T) y => Back x y) ih)
    exact .unnamed h1 h2
  | @variantNamed n fs c sub ih =>
    rw [removeContext_vnamed]
    obtain ⟨h1, h2⟩ := forall₂_names (R := fun (x : Value T) y => Back x y).1
      (forall₂_map_right_self (as := fs) (f := fun p => (p.1, p.2.removeContext)) (R := fun x y => x.1 = y.1 ∧ Back x.2 y.2) fun a ha => ⟨rfl, ih a ha⟩)
    exact .variantNamed h1 h2
  | @variantUnnamed n vs c sub ih =>
    rw [removeContext_vunnamed]
    obtain ⟨h1, h2⟩ := pointwise_forall₂.2 (forall₂_map_right_self (R := fun (x : Value T) y => Back x y) ih)
    exact .variantUnnamed h1 h2

theorem back_safe (v : Value T) : Back v v.removeContext → SerdeSafe v := by
  induction v using Value.ind with
  | named fs c ih =>
    intro h
    rw [removeContext_named] at h
    cases h with
    | named first names sub =>
      refine .named first fun p hp => ih p hp ?_
      exact (forall₂_map_right_mem (f := fun p : Str × Value T => (p.1, p.2.removeContext)) (forall₂_names (R := fun (x : Value T) y => Back x y).2 ⟨names, sub⟩) p hp).2
  | unnamed vs c ih =>
    intro h
    rw [removeContext_unnamed] at h
    cases h with
    | unnamed len sub => exact .unnamed fun p hp => ih p hp (forall₂_map_right_mem (R := fun (x : Value T) y => Back x y) (pointwise_forall₂.1 ⟨len, sub⟩) p hp)
  | vnamed n fs c ih =>
    intro h
    rw [removeContext_vnamed] at h
    cases h with
    | variantNamed names sub =>
      refine .variantNamed fun p hp => ih p hp ?_
      exact (forall₂_map_right_mem (f := fun p : Str × Value T => (p.1, p.2.removeContext)) (forall₂_names (R := fun (x : Value T) y => Back x y).2 ⟨names, sub⟩) p hp).2
  | vunnamed n vs c ih =>
    intro h
    rw [removeContext_vunnamed] at h
    cases h with
    | variantUnnamed len sub => exact .variantUnnamed fun p hp => ih p hp (forall₂_map_right_mem (R := fun (x : Value T) y => Back x y) (pointwise_forall₂.1 ⟨len, sub⟩) p hp)
  | bits b c => intro _; exact .bits
  | prim p c =>
    intro h
    rw [removeContext_prim] at h
    cases h with
    | prim h => exact .prim h

theorem deComposite_safe (f : Composite T) (h : ∀ v ∈ f.vals, SerdeSafe v) (c : T) (g : Composite Unit)
    (hg : (Value.mk (.composite f) c).removeContext = .mk (.composite g) ()) : deComposite (.mk f.ask) = some g := by
  cases f with
  | named fs =>
    rw [removeContext_named] at hg
    cases hg
    rw [deComp_fields]
    refine ⟨_, forall₂_map_right_self (f := fun p : Str × Value T => (p.1, p.2.removeContext)) (R := fun x y => x.1 = y.1 ∧ deValue x.2.der = some y.2) ?_, rfl⟩
    intro a ha
    exact ⟨rfl, back_sound (safe_back (h _ (List.mem_map_of_mem ha)))⟩
  | unnamed vs =>
    rw [removeContext_unnamed] at hg
    cases hg
    rw [deComp_vals]
    exact ⟨_, forall₂_map_right_self (R := fun (x : Value T) y => deValue x.der = some y) fun a ha => back_sound (safe_back (h _ ha)), rfl⟩

theorem deVariant_ask (n : Str) (f : Composite T) : deVariant (.mk (Variant.mk n f).ask) = (deComposite (.mk f.ask)).map (.mk n) := by
  simp only [deVariant, Der.visit, Der.ask, Variant.ask, deString_strDer]
  cases deComposite (.mk f.ask) <;> rfl

theorem bytes32?_bytes (b : Bytes32) : bytes32? b.bytes = some (.u256 b) := by
  unfold bytes32?
  rw [dif_pos b.len]

theorem num_u128 (n : U128) (a b) : Num.toPrim ⟨.u128, n.val, a, b⟩ = .u128 n := toPrim_u128 n rfl rfl
theorem num_i128 (n : I128) (a b) : Num.toPrim ⟨.i128, n.val, a, b⟩ = .i128 n := toPrim_i128 n rfl rfl

theorem dePrimitive_ask (p : Primitive) : dePrimitive (.mk p.ask) = some (match p with | .i256 b => .u256 b | p => p) := by
  cases p with
  | bool b => rfl
  | char b => rfl
  | string b => rfl
  | u128 n => exact congrArg some (num_u128 n _ _)
  | i128 n => exact congrArg some (num_i128 n _ _)
  | u256 b => simp only [dePrimitive, Der.visit, Der.ask, Primitive.ask, Primitive.any, bytes32?_bytes]
  | i256 b => simp only [dePrimitive, Der.visit, Der.ask, Primitive.ask, Primitive.any, bytes32?_bytes]

/-! ### Numbers -/

theorem acceptNum_some {t : NumTy} {n m : Num} (h : acceptNum t n = some m) : m.ty = t ∧ m.val = n.val := by
  unfold acceptNum at h
  split at h
  · next h1 => cases h; exact ⟨h1, rfl⟩
  · split at h
    · cases h
    · exact ofInt?_eq_some.1 h

theorem acceptNum_self {t : NumTy} {n : Num} (h : n.ty = t) : acceptNum t n = some n := by
  unfold acceptNum; rw [if_pos h]

theorem deNum_iff (t : NumTy) (v : Value T) (m : Num) : deNum t v.der = some m ↔ v.number? = some m.val ∧ m.ty = t := by
  cases v with | mk d c =>
  cases d with
  | composite f => cases f <;> simp [Value.der, deNum, Der.visit, Der.ask, ValueDef.ask, Composite.ask, Value.number?]
  | variant v => cases v; simp [Value.der, deNum, Der.visit, Der.ask, ValueDef.ask, Variant.ask, Value.number?]
  | bitSequence b => simp [Value.der, deNum, Der.visit, Der.ask, ValueDef.ask, bitsReply, Value.number?]
  | primitive p =>
    cases p with
    | bool b => simp [Value.der, deNum, Der.visit, Der.ask, ValueDef.ask, Primitive.ask, Primitive.askNum, Primitive.any, Value.number?]
    | char b => simp [Value.der, deNum, Der.visit, Der.ask, ValueDef.ask, Primitive.ask, Primitive.askNum, Primitive.any, Value.number?]
    | string b => simp [Value.der, deNum, Der.visit, Der.ask, ValueDef.ask, Primitive.ask, Primitive.askNum, Primitive.any, Value.number?]
    | u256 b => simp [Value.der, deNum, Der.visit, Der.ask, ValueDef.ask, Primitive.ask, Primitive.askNum, Primitive.any, Value.number?]
    | i256 b => simp [Value.der, deNum, Der.visit, Der.ask, ValueDef.ask, Primitive.ask, Primitive.askNum, Primitive.any, Value.number?]
    | u128 n =>
      simp only [Value.der, deNum, Der.visit, Der.ask, ValueDef.ask, Primitive.ask, Primitive.askNum, Primitive.any, Value.number?, Option.some.injEq]
      cases h : Num.ofInt? t n.val with
      | some x =>
        obtain ⟨h1, h2⟩ := ofInt?_eq_some.1 h
        simp only [acceptNum_self h1, Option.some.injEq]
        constructor
        · rintro rfl; exact ⟨h2.symm, h1⟩
        · rintro ⟨h3, h4⟩; exact num_ext (h1.trans h4.symm) (h2.trans h3)
      | none =>
        rw [ofInt?_eq_none] at h
        constructor
        · intro h1
          obtain ⟨h2, h3⟩ := acceptNum_some h1
          replace h3 : m.val = n.val := h3
          exact absurd ((holds_iff t _).2 (by rw [← h2, ← h3]; exact ⟨m.ge, m.lt⟩)) h
        · rintro ⟨h1, h2⟩
          exact absurd ((holds_iff t _).2 (by rw [← h2, h1]; exact ⟨m.ge, m.lt⟩)) h
    | i128 n =>
      simp only [Value.der, deNum, Der.visit, Der.ask, ValueDef.ask, Primitive.ask, Primitive.askNum, Primitive.any, Value.number?, Option.some.injEq]
      cases h : Num.ofInt? t n.val with
      | some x =>
        obtain ⟨h1, h2⟩ := ofInt?_eq_some.1 h
        simp only [acceptNum_self h1, Option.some.injEq]
        constructor
        · rintro rfl; exact ⟨h2.symm, h1⟩
        · rintro ⟨h3, h4⟩; exact num_ext (h1.trans h4.symm) (h2.trans h3)
      | none =>
        rw [ofInt?_eq_none] at h
        constructor
        · intro h1
          obtain ⟨h2, h3⟩ := acceptNum_some h1
          replace h3 : m.val = n.val := h3
          exact absurd ((holds_iff t _).2 (by rw [← h2, ← h3]; exact ⟨m.ge, m.lt⟩)) h
        · rintro ⟨h1, h2⟩
          exact absurd ((holds_iff t _).2 (by rw [← h2, h1]; exact ⟨m.ge, m.lt⟩)) h

/-! ### Options, newtypes -/

theorem deOption_iff (t : Ty) (v : Value T) (d : Dat) : (Ty.option t).de v.der = some d ↔
    (∃ c, v = .mk (.variant (.mk "None".toList (.unnamed []))) c ∧ d = .none) ∨
    (∃ c w x, v = .mk (.variant (.mk "Some".toList (.unnamed [w]))) c ∧ t.de w.der = some x ∧ d = .some x) := by
  rw [Ty.de]
  cases v with | mk df c =>
  cases df with
  | composite f => cases f <;> simp [Value.der, Der.visit, Der.ask, ValueDef.ask, Composite.ask]
  | bitSequence b => simp [Value.der, Der.visit, Der.ask, ValueDef.ask, bitsReply]
  | primitive p => cases p <;> simp [Value.der, Der.visit, Der.ask, ValueDef.ask, Primitive.any]
  | variant v =>
    cases v with | mk n f =>
    cases f with
    | named fs => simp [Value.der, Der.visit, Der.ask, ValueDef.ask, Variant.askOption, Composite.elems?]
    | unnamed vs =>
      match vs with
      | [] =>
        simp only [Value.der, Der.visit, Der.ask, ValueDef.ask, Variant.askOption, Composite.elems?, valDers]
        by_cases h : n = "None".toList
        · rw [if_pos h]; subst h; simp [eq_comm]
        · rw [if_neg h]
          constructor
          · intro h; cases h
          · rintro (⟨c, h1, -⟩ | ⟨c, w, x, h1, -⟩)
            · cases h1; exact absurd rfl h
            · cases h1
      | [w] =>
        simp only [Value.der, Der.visit, Der.ask, ValueDef.ask, Variant.askOption, Composite.elems?, valDers]
        by_cases h : n = "Some".toList
        · rw [if_pos h]; subst h; simp [eq_comm]; generalize t.de w.der = r; cases r <;> simp [eq_comm]
        · rw [if_neg h]
          constructor
          · intro h; cases h
          · rintro (⟨c, h1, -⟩ | ⟨c, w, x, h1, -⟩)
            · cases h1
            · cases h1; exact absurd rfl h
      | w :: w' :: ws =>
        simp [Value.der, Der.visit, Der.ask, ValueDef.ask, Variant.askOption, Composite.elems?, valDers]

theorem visit_of_ask {d e : Der} {a : Hint} (h : d.ask a = e.ask a) (hs : e.ask a ≠ .self) : d.visit a = e.visit a := by
  unfold Der.visit
  rw [h]
  generalize e.ask a = r at hs
  cases r <;> first | rfl | exact absurd rfl hs

theorem composite_ask_self (f : Composite T) (a : Hint) (h : a ≠ .newtypeStruct) : f.ask a ≠ .self := by
  intro hs
  cases f <;> cases a <;> simp only [Composite.ask] at hs <;> first | exact h rfl | cases hs | (split at hs <;> cases hs)

theorem variant_ask_self (v : Variant T) (a : Hint) (h : a ≠ .newtypeStruct) : v.ask a ≠ .self := by
  intro hs
  cases v with | mk n f =>
  cases a <;> simp only [Variant.ask] at hs <;> first | exact h rfl | exact composite_ask_self f _ (by simp) hs | cases hs

theorem primitive_ask_self (p : Primitive) (a : Hint) (h : a ≠ .newtypeStruct) : p.ask a ≠ .self := by
  intro hs
  cases p <;> cases a <;> simp only [Primitive.ask, Primitive.any, Primitive.askNum] at hs <;> first | exact h rfl | cases hs | (split at hs <;> cases hs)

/-- What a type reads depends only on what the deserializer does. -/
theorem de_congr (t : Ty) (d e : Der) (h : ∀ a, d.visit a = e.visit a) (h' : d.ask .any = e.ask .any) : t.de d = t.de e := by
  cases t <;> try simp only [Ty.de, deBool, deNum, deChar, deString, deBytes, h]
  cases d; cases e
  simp only [Der.ask] at h'
  simp only [deValue, h']

theorem newtype_composite (t : Ty) (f : Composite T) (c : T) :
    (Ty.newtype t).de (Value.mk (.composite f) c).der = (t.de (Value.mk (.composite f) c).der).map (fun x => .list [x]) := by
  rw [Ty.de]
  have : (Value.mk (.composite f) c).der.visit .newtypeStruct = .seq false [.mk f.ask] := by simp [Value.der, Der.visit, Der.ask, ValueDef.ask]
  rw [this]
  simp only [Bool.false_eq_true, false_and, if_false]
  congr 1
  apply de_congr
  · intro a
    by_cases ha : a = .newtypeStruct
    · subst ha
      cases f <;> simp [Value.der, Der.visit, Der.ask, ValueDef.ask, Composite.ask]
    · refine (visit_of_ask (e := .mk f.ask) ?_ (by exact composite_ask_self f a ha)).symm
      cases f <;> cases a <;> first | exact absurd rfl ha | rfl
  · simp [Value.der, Der.ask, ValueDef.ask]

theorem newtype_primitive (t : Ty) (p : Primitive) (c : T) :
    (Ty.newtype t).de (Value.mk (.primitive p) c).der = (t.de (Value.mk (.primitive p) c).der).map (fun x => .list [x]) := by
  rw [Ty.de]
  have : (Value.mk (.primitive p) c).der.visit .newtypeStruct = .seq false [.mk p.ask] := by simp [Value.der, Der.visit, Der.ask, ValueDef.ask]
  rw [this]
  simp only [Bool.false_eq_true, false_and, if_false]
  congr 1
  apply de_congr
  · intro a
    by_cases ha : a = .newtypeStruct
    · subst ha
      simp [Value.der, Der.visit, Der.ask, ValueDef.ask, Primitive.ask]
    · refine (visit_of_ask (e := .mk p.ask) ?_ (by exact primitive_ask_self p a ha)).symm
      cases a <;> first | exact absurd rfl ha | rfl
  · simp [Value.der, Der.ask, ValueDef.ask]

theorem newtype_variant (t : Ty) (n : Str) (f : Composite T) (c : T) (h1 : ∀ u, t ≠ .option u) (h2 : ∀ fs, t ≠ .struct fs) :
    (Ty.newtype t).de (Value.mk (.variant (.mk n f)) c).der = (t.de (Value.mk (.variant (.mk n f)) c).der).map (fun x => .list [x]) := by
  rw [Ty.de]
  have : (Value.mk (.variant (.mk n f)) c).der.visit .newtypeStruct = .seq false [.mk (Variant.mk n f).ask] := by simp [Value.der, Der.visit, Der.ask, ValueDef.ask]
  rw [this]
  simp only [Bool.false_eq_true, false_and, if_false]
  congr 1
  have key : ∀ a, a ≠ .option → a ≠ .struct → (Der.mk (Variant.mk n f).ask).visit a = (Value.mk (.variant (.mk n f)) c).der.visit a := by
    intro a ha hb
    by_cases hc : a = .newtypeStruct
    · subst hc
      simp [Value.der, Der.visit, Der.ask, ValueDef.ask, Variant.ask]
    · refine (visit_of_ask (e := .mk (Variant.mk n f).ask) ?_ (by exact variant_ask_self _ a hc)).symm
      cases a <;> first | exact absurd rfl ha | exact absurd rfl hb | exact absurd rfl hc | rfl
  cases t with
  | option u => exact absurd rfl (h1 u)
  | struct fs => exact absurd rfl (h2 fs)
  | value => simp only [Ty.de, Value.der, deValue, ValueDef.ask]
  | bool => simp only [Ty.de, deBool]; rw [key _ (by simp) (by simp)]
  | num t => simp only [Ty.de, deNum]; rw [key _ (by simp) (by simp)]
  | char => simp only [Ty.de, deChar]; rw [key _ (by simp) (by simp)]
  | string => simp only [Ty.de, deString]; rw [key _ (by simp) (by simp)]
  | bytes => simp only [Ty.de, deBytes]; rw [key _ (by simp) (by simp)]
  | unit => simp only [Ty.de]; rw [key _ (by simp) (by simp)]
  | unitStruct => simp only [Ty.de]; rw [key _ (by simp) (by simp)]
  | newtype t => simp only [Ty.de]; rw [key _ (by simp) (by simp)]
  | seq t => simp only [Ty.de]; rw [key _ (by simp) (by simp)]
  | tuple t => simp only [Ty.de]; rw [key _ (by simp) (by simp)]
  | tupleStruct t => simp only [Ty.de]; rw [key _ (by simp) (by simp)]
  | enum t => simp only [Ty.de]; rw [key _ (by simp) (by simp)]
  | map b t => simp only [Ty.de]; rw [key _ (by simp) (by simp)]

theorem newtype_option_variant (t : Ty) (n : Str) (f : Composite T) (c : T) : (Ty.newtype (.option t)).de (Value.mk (.variant (.mk n f)) c).der = none := by
  rw [Ty.de]
  have : (Value.mk (.variant (.mk n f)) c).der.visit .newtypeStruct = .seq false [.mk (Variant.mk n f).ask] := by simp [Value.der, Der.visit, Der.ask, ValueDef.ask]
  rw [this]
  simp [Ty.de, Der.visit, Der.ask, Variant.ask]

theorem newtype_bits (t : Ty) (b : List Bool) (c : T) : (Ty.newtype t).de (Value.mk (.bitSequence b) c).der = none := by
  rw [Ty.de]
  simp [Value.der, Der.visit, Der.ask, ValueDef.ask]

end SV
