import Verif.Props.ReadOwn
/-
C84: composites, variants and primitives can be read from like the values that they are in (`T::deserialize(composite)`), with two exceptions for variants.
-/
namespace SV

variable {T : Type}

/-- Types are read by one request, whose answer decides. -/
theorem deE_request (t : Ty) {d d' : Der} (h : ∀ a, (a = .option → ∃ u, t = .option u) → (a = .struct → ∃ fs, t = .struct fs) → d.visit a = d'.visit a) (any : d.ask .any = d'.ask .any) :
    t.deE d = t.deE d' := by
  have v : ∀ d : Der, deValueE d = match deDefE (d.ask .any) with
      | .ok d => .ok (.mk d ())
      | .error e => .error e := by
    intro d; cases d; rw [deValueE]; rfl
  cases t with
  | option t => rw [Ty.deE, Ty.deE, h .option (by simp) (by simp)]
  | struct fs => rw [Ty.deE, Ty.deE, h .struct (by simp) (by simp)]
  | value => rw [Ty.deE, Ty.deE, v d, v d', any]
  | bool => rw [Ty.deE, Ty.deE, deBoolE, deBoolE, h .bool (by simp) (by simp)]
  | num n => rw [Ty.deE, Ty.deE, deNumE, deNumE, h (.num n) (by simp) (by simp)]
  | char => rw [Ty.deE, Ty.deE, deCharE, deCharE, h .char (by simp) (by simp)]
  | string => rw [Ty.deE, Ty.deE, deStringE, deStringE, h .str (by simp) (by simp)]
  | bytes => rw [Ty.deE, Ty.deE, deBytesE, deBytesE, h .bytes (by simp) (by simp)]
  | unit => rw [Ty.deE, Ty.deE, h .unit (by simp) (by simp)]
  | unitStruct => rw [Ty.deE, Ty.deE, h .unitStruct (by simp) (by simp)]
  | newtype t => rw [Ty.deE, Ty.deE, h .newtypeStruct (by simp) (by simp)]
  | seq t => rw [Ty.deE, Ty.deE, h .seq (by simp) (by simp)]
  | tuple ts => rw [Ty.deE, Ty.deE, h (.tuple ts.length) (by simp) (by simp)]
  | tupleStruct ts => rw [Ty.deE, Ty.deE, h (.tupleStruct ts.length) (by simp) (by simp)]
  | enum vs => rw [Ty.deE, Ty.deE, h .enum (by simp) (by simp)]
  | map chars t => rw [Ty.deE, Ty.deE, h .map (by simp) (by simp)]

theorem ownE_congr {d d' : Der} (any : d.ask .any = d'.ask .any) (v : d.visit .any = d'.visit .any) :
    deCompositeE d = deCompositeE d' ∧ deVariantE d = deVariantE d' ∧ dePrimitiveE d = dePrimitiveE d' := by
  have c : ∀ d : Der, deCompositeE d = deCompE (d.ask .any) := by intro d; cases d; rw [deCompositeE]; rfl
  refine ⟨by rw [c, c, any], by rw [deVariantE, deVariantE, v], by rw [dePrimitiveE, dePrimitiveE, v]⟩

theorem visit_ask {d d' : Der} {h : Hint} (same : d.ask h = d'.ask h) (hs : d.ask h ≠ .self) : d.visit h = d'.visit h := by
  unfold Der.visit
  rw [← same]
  cases hd : d.ask h <;> first | rfl | exact absurd hd hs

theorem composite_no_self (f : Composite T) (h : Hint) (hn : h ≠ .newtypeStruct) : f.ask h ≠ .self := by
  cases f <;> cases h <;> simp only [Composite.ask] <;> first | exact absurd rfl hn | (split <;> simp) | simp

theorem primitive_no_self (p : Primitive) (h : Hint) (hn : h ≠ .newtypeStruct) : p.ask h ≠ .self := by
  cases h <;> first | exact absurd rfl hn | (simp only [Primitive.ask]; cases p <;> simp [Primitive.any, Primitive.askNum] <;> split <;> simp)

theorem variant_no_self (n : Str) (f : Composite T) (h : Hint) (hn : h ≠ .newtypeStruct) : (Variant.mk n f).ask h ≠ .self := by
  cases h <;> simp only [Variant.ask] <;> first | exact absurd rfl hn | exact composite_no_self f _ (by simp) | simp

/-- C84: a composite answers any visitor like a value with it. -/
theorem C84_composite_replies (f : Composite T) (c : T) (h : Hint) : (Der.mk f.ask).visit h = (Value.mk (.composite f) c).der.visit h := by
  by_cases hn : h = .newtypeStruct
  · subst hn
    cases f <;> simp [Value.der, Der.visit, Der.ask, ValueDef.ask, Composite.ask]
  · refine visit_ask ?_ (composite_no_self f h hn)
    cases f <;> cases h <;> first | exact absurd rfl hn | simp [Value.der, Der.ask, ValueDef.ask, Composite.ask]

/-- C84: a primitive answers any visitor like a value with it. -/
theorem C84_primitive_replies (p : Primitive) (c : T) (h : Hint) : (Der.mk p.ask).visit h = (Value.mk (.primitive p) c).der.visit h := by
  by_cases hn : h = .newtypeStruct
  · subst hn
    simp [Value.der, Der.visit, Der.ask, ValueDef.ask, Primitive.ask]
  · refine visit_ask ?_ (primitive_no_self p h hn)
    cases h <;> first | exact absurd rfl hn | simp [Value.der, Der.ask, ValueDef.ask, Primitive.ask]

/-- C84: a variant answers any visitor like a value with it, except when it is asked for an `Option` or a struct. -/
theorem C84_variant_replies (n : Str) (f : Composite T) (c : T) (h : Hint) (h1 : h ≠ .option) (h2 : h ≠ .struct) :
    (Der.mk (Variant.mk n f).ask).visit h = (Value.mk (.variant (.mk n f)) c).der.visit h := by
  by_cases hn : h = .newtypeStruct
  · subst hn
    simp [Value.der, Der.visit, Der.ask, ValueDef.ask, Variant.ask]
  · refine visit_ask ?_ (variant_no_self n f h hn)
    cases h <;> first | exact absurd rfl hn | exact absurd rfl h1 | exact absurd rfl h2 | simp [Value.der, Der.ask, ValueDef.ask, Variant.ask]

/-- C84: so every type is read from a composite as from a value with it: `ReadAs`, `ReadFault` of C81 and C82 say what is read and which error there is. -/
theorem C84_composite (t : Ty) (ht : t.Proper) (f : Composite T) (c : T) :
    (∀ d, t.deE (.mk f.ask) = .ok d ↔ ReadAs t (.mk (.composite f) c) d) ∧ ∀ e, t.deE (.mk f.ask) = .error e ↔ ReadFault t (.mk (.composite f) c) e := by
  have h : t.deE (.mk f.ask) = t.deE (Value.mk (.composite f) c).der :=
    deE_request t (fun a _ _ => C84_composite_replies f c a) (by cases f <;> simp [Value.der, Der.ask, ValueDef.ask])
  rw [h]
  exact ⟨fun d => ((C73_agree t ht _).1 d).trans (C81_reads t _ d), C82_error t ht _⟩

/-- C84: and from a primitive. -/
theorem C84_primitive (t : Ty) (ht : t.Proper) (p : Primitive) (c : T) :
    (∀ d, t.deE (.mk p.ask) = .ok d ↔ ReadAs t (.mk (.primitive p) c) d) ∧ ∀ e, t.deE (.mk p.ask) = .error e ↔ ReadFault t (.mk (.primitive p) c) e := by
  have h : t.deE (.mk p.ask) = t.deE (Value.mk (.primitive p) c).der :=
    deE_request t (fun a _ _ => C84_primitive_replies p c a) (by simp [Value.der, Der.ask, ValueDef.ask])
  rw [h]
  exact ⟨fun d => ((C73_agree t ht _).1 d).trans (C81_reads t _ d), C82_error t ht _⟩

/-- C84: and from a variant, unless the type is an `Option` or a struct. -/
theorem C84_variant (t : Ty) (ht : t.Proper) (ho : ∀ u, t ≠ .option u) (hs : ∀ fs, t ≠ .struct fs) (x : Variant T) (c : T) :
    (∀ d, t.deE (.mk x.ask) = .ok d ↔ ReadAs t (.mk (.variant x) c) d) ∧ ∀ e, t.deE (.mk x.ask) = .error e ↔ ReadFault t (.mk (.variant x) c) e := by
  have h : t.deE (.mk x.ask) = t.deE (Value.mk (.variant x) c).der := by
    cases x with | mk n f =>
    refine deE_request t (fun a h1 h2 => C84_variant_replies n f c a ?_ ?_) (by simp [Value.der, Der.ask, ValueDef.ask])
    · intro h; obtain ⟨u, hu⟩ := h1 h; exact ho u hu
    · intro h; obtain ⟨u, hu⟩ := h2 h; exact hs u hu
  rw [h]
  exact ⟨fun d => ((C73_agree t ht _).1 d).trans (C81_reads t _ d), C82_error t ht _⟩

/-- C84: an `Option` is never read from a variant that is not in a value, not even from `Some(..)` and `None()`. -/
theorem C84_variant_option (t : Ty) (x : Variant T) : (Ty.option t).deE (.mk x.ask) = .error (.invalidType .enum .option) := by
  cases x with | mk n f =>
  rw [Ty.deE]
  have : (Der.mk (Variant.mk n f).ask).visit .option = .enum (strDer n) (.mk f.ask) (accessOf f.ask) := by
    simp [Der.visit, Der.ask, Variant.ask]
  rw [this]
  rfl

/-- C84: a struct is read from the fields of a variant that is not in a value, whatever its name. (It is never read from a value with a variant: C82.) -/
theorem C84_variant_struct (fs : List (Str × Ty)) (ht : (Ty.struct fs).Proper) (n : Str) (f : Composite T) (c : T) :
    (∀ d, (Ty.struct fs).deE (.mk (Variant.mk n f).ask) = .ok d ↔ ReadAs (.struct fs) (.mk (.composite f) c) d) ∧
    ∀ e, (Ty.struct fs).deE (.mk (Variant.mk n f).ask) = .error e ↔ ReadFault (.struct fs) (.mk (.composite f) c) e := by
  have h : (Ty.struct fs).deE (.mk (Variant.mk n f).ask) = (Ty.struct fs).deE (.mk f.ask) := by
    rw [Ty.deE, Ty.deE]
    have : (Der.mk (Variant.mk n f).ask).visit .struct = (Der.mk f.ask).visit .struct :=
      visit_ask (by simp [Der.ask, Variant.ask]) (show (Variant.mk n f).ask .struct ≠ .self from variant_no_self n f .struct (by simp))
    rw [this]
  rw [h]
  exact C84_composite _ ht f c

/-- C84: the types of this library are read from composites, variants and primitives as from values with them (C83; `Value` is among the types above). -/
theorem C84_own (d : ValueDef T) (c : T) (r : Der) (hr : (∃ f, d = .composite f ∧ r = .mk f.ask) ∨ (∃ x, d = .variant x ∧ r = .mk x.ask) ∨ ∃ p, d = .primitive p ∧ r = .mk p.ask) :
    (∀ g, deCompositeE r = .ok g ↔ CompositeBack (.mk d c) g) ∧ (∀ e, deCompositeE r = .error e ↔ CompositeWrong (.mk d c) e) ∧
    (∀ g, deVariantE r = .ok g ↔ VariantBack (.mk d c) g) ∧ (∀ e, deVariantE r = .error e ↔ VariantWrong (.mk d c) e) ∧
    (∀ g, dePrimitiveE r = .ok g ↔ PrimitiveBack (.mk d c) g) ∧ (∀ e, dePrimitiveE r = .error e ↔ PrimitiveWrong (.mk d c) e) := by
  have h : deCompositeE r = deCompositeE (Value.mk d c).der ∧ deVariantE r = deVariantE (Value.mk d c).der ∧ dePrimitiveE r = dePrimitiveE (Value.mk d c).der := by
    rcases hr with ⟨f, rfl, rfl⟩ | ⟨⟨n, f⟩, rfl, rfl⟩ | ⟨p, rfl, rfl⟩
    · exact ownE_congr (by cases f <;> simp [Value.der, Der.ask, ValueDef.ask]) (C84_composite_replies f c .any)
    · exact ownE_congr (by simp [Value.der, Der.ask, ValueDef.ask]) (C84_variant_replies n f c .any (by simp) (by simp))
    · exact ownE_congr (by simp [Value.der, Der.ask, ValueDef.ask]) (C84_primitive_replies p c .any)
  rw [h.1, h.2.1, h.2.2]
  exact ⟨(C83_composite _).1, (C83_composite _).2, (C83_variant _).1, (C83_variant _).2, (C83_primitive _).1, (C83_primitive _).2⟩

/-! ### C84 is about something -/

example : (Ty.tuple [.bool, .num .u8]).deE (.mk (Composite.unnamed [Value.bool true, exU 3]).ask) = .ok (.list [.bool true, .num ⟨.u8, 3, by decide, by decide⟩]) := rfl
example : (Ty.option .bool).deE (.mk (Variant.mk "Some".toList (.unnamed [Value.bool true])).ask) = .error (.invalidType .enum .option) := rfl
example : (Ty.option .bool).deE (Value.variant "Some".toList (.unnamed [Value.bool true])).der = .ok (.some (.bool true)) := rfl
example : (Ty.struct [("a".toList, .bool)]).deE (.mk (Variant.mk "X".toList (.named [("a".toList, Value.bool true)])).ask) = .ok (.list [.bool true]) := rfl
example : (Ty.struct [("a".toList, .bool)]).deE (Value.variant "X".toList (.named [("a".toList, Value.bool true)])).der = .error (.invalidType .enum .struct) := rfl

end SV
