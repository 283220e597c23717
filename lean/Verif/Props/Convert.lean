import Verif.Model.Convert
import Verif.Props.Value
import Mathlib.Data.List.Forall2
/-
C69: `==` tells all values apart; conversions to values at the three levels agree.
-/
namespace SV

variable {T U : Type}

theorem prim_eqv (p q : Primitive) : p.eqv q = true ↔ p = q := by
  cases p <;> cases q <;> simp [Primitive.eqv] <;> (rename_i a b; cases a; cases b; simp)

mutual
theorem value_eqv {eqT : T → T → Bool} (he : ∀ x y, eqT x y = true ↔ x = y) : ∀ v w : Value T, v.eqv eqT w = true ↔ v = w
  | .mk d x, .mk e y => by rw [Value.eqv, Bool.and_eq_true, def_eqv he d e, he]; simp
theorem def_eqv {eqT : T → T → Bool} (he : ∀ x y, eqT x y = true ↔ x = y) : ∀ v w : ValueDef T, v.eqv eqT w = true ↔ v = w
  | .composite a, .composite b => by rw [ValueDef.eqv, composite_eqv he a b]; simp
  | .variant a, .variant b => by rw [ValueDef.eqv, variant_eqv he a b]; simp
  | .bitSequence a, .bitSequence b => by simp [ValueDef.eqv]
  | .primitive a, .primitive b => by rw [ValueDef.eqv, prim_eqv]; simp
  | .composite _, .variant _ | .composite _, .bitSequence _ | .composite _, .primitive _ => by simp [ValueDef.eqv]
  | .variant _, .composite _ | .variant _, .bitSequence _ | .variant _, .primitive _ => by simp [ValueDef.eqv]
  | .bitSequence _, .composite _ | .bitSequence _, .variant _ | .bitSequence _, .primitive _ => by simp [ValueDef.eqv]
  | .primitive _, .composite _ | .primitive _, .variant _ | .primitive _, .bitSequence _ => by simp [ValueDef.eqv]
theorem variant_eqv {eqT : T → T → Bool} (he : ∀ x y, eqT x y = true ↔ x = y) : ∀ v w : Variant T, v.eqv eqT w = true ↔ v = w
  | .mk n c, .mk m d => by rw [Variant.eqv, Bool.and_eq_true, composite_eqv he c d]; simp
theorem composite_eqv {eqT : T → T → Bool} (he : ∀ x y, eqT x y = true ↔ x = y) : ∀ v w : Composite T, v.eqv eqT w = true ↔ v = w
  | .named a, .named b => by rw [Composite.eqv, named_eqv he a b]; simp
  | .unnamed a, .unnamed b => by rw [Composite.eqv, unnamed_eqv he a b]; simp
  | .named _, .unnamed _ | .unnamed _, .named _ => by simp [Composite.eqv]
theorem named_eqv {eqT : T → T → Bool} (he : ∀ x y, eqT x y = true ↔ x = y) : ∀ v w : List (Str × Value T), eqvNamed eqT v w = true ↔ v = w
  | [], [] => by simp [eqvNamed]
  | [], _ :: _ | _ :: _, [] => by simp [eqvNamed]
  | (n, v) :: a, (m, w) :: b => by rw [eqvNamed, Bool.and_eq_true, Bool.and_eq_true, value_eqv he v w, named_eqv he a b]; simp
theorem unnamed_eqv {eqT : T → T → Bool} (he : ∀ x y, eqT x y = true ↔ x = y) : ∀ v w : List (Value T), eqvUnnamed eqT v w = true ↔ v = w
  | [], [] => by simp [eqvUnnamed]
  | [], _ :: _ | _ :: _, [] => by simp [eqvUnnamed]
  | v :: a, w :: b => by rw [eqvUnnamed, Bool.and_eq_true, value_eqv he v w, unnamed_eqv he a b]; simp
end

/-- The contexts of two values at the same places are related. -/
def CtxBy (eqT : T → T → Bool) (v w : Value T) : Prop :=
  ∀ path cs ds, ContextsTo v path cs → ContextsTo w path ds → List.Forall₂ (fun x y => eqT x y = true) cs ds

theorem ctxBy_iff (eqT : T → T → Bool) (v w : Value T) : CtxBy eqT v w ↔
    eqT v.context w.context = true ∧ ∀ (i : Nat) (x y : Value T), v.children[i]? = some x → w.children[i]? = some y → CtxBy eqT x y := by
  constructor
  · intro h
    refine ⟨?_, fun i x y hx hy p cs ds h1 h2 => ?_⟩
    · have := h _ _ _ (.here v) (.here w)
      simpa using this
    · have := h _ _ _ (.step hx h1) (.step hy h2)
      cases this with | cons _ h => exact h
  · rintro ⟨h1, h2⟩ p cs ds h3 h4
    cases p with
    | nil => cases h3; cases h4; exact .cons h1 .nil
    | cons i p =>
      obtain ⟨x, cs', hx, hx', rfl⟩ := h3.cons_inv
      obtain ⟨y, ds', hy, hy', rfl⟩ := h4.cons_inv
      exact .cons h1 (h2 i x y hx hy p _ _ hx' hy')

theorem eqvNamed_iff (eqT : T → T → Bool) : ∀ a b : List (Str × Value T), eqvNamed eqT a b = true ↔
    a.map (fun p => p.1) = b.map (fun p => p.1) ∧ ∀ (i : Nat) (x y : Str × Value T), a[i]? = some x → b[i]? = some y → x.2.eqv eqT y.2 = true
  | [], [] => by simp [eqvNamed]
  | [], _ :: _ | _ :: _, [] => by simp [eqvNamed]
  | (n, v) :: a, (m, w) :: b => by
    rw [eqvNamed, Bool.and_eq_true, Bool.and_eq_true, eqvNamed_iff eqT a b]
    constructor
    · rintro ⟨⟨h1, h2⟩, h3, h4⟩
      refine ⟨by simpa using ⟨by simpa using h1, h3⟩, ?_⟩
      intro i x y hx hy
      cases i with
      | zero => simp at hx hy; subst hx hy; exact h2
      | succ i => exact h4 i x y (by simpa using hx) (by simpa using hy)
    · rintro ⟨h1, h2⟩
      simp only [List.map_cons, List.cons.injEq] at h1
      exact ⟨⟨by simpa using h1.1, h2 0 (n, v) (m, w) rfl rfl⟩, h1.2, fun i x y hx hy => h2 (i + 1) x y (by simpa using hx) (by simpa using hy)⟩

theorem eqvUnnamed_iff (eqT : T → T → Bool) : ∀ a b : List (Value T), eqvUnnamed eqT a b = true ↔
    a.length = b.length ∧ ∀ (i : Nat) (x y : Value T), a[i]? = some x → b[i]? = some y → x.eqv eqT y = true
  | [], [] => by simp [eqvUnnamed]
  | [], _ :: _ | _ :: _, [] => by simp [eqvUnnamed]
  | v :: a, w :: b => by
    rw [eqvUnnamed, Bool.and_eq_true, eqvUnnamed_iff eqT a b]
    constructor
    · rintro ⟨h2, h3, h4⟩
      refine ⟨by simpa using h3, ?_⟩
      intro i x y hx hy
      cases i with
      | zero => simp at hx hy; subst hx hy; exact h2
      | succ i => exact h4 i x y (by simpa using hx) (by simpa using hy)
    · rintro ⟨h1, h2⟩
      exact ⟨h2 0 v w rfl rfl, by simpa using h1, fun i x y hx hy => h2 (i + 1) x y (by simpa using hx) (by simpa using hy)⟩

theorem sub_of_getElem {fs : List (Str × Value T)} {i : Nat} {x : Value T} (h : (fs.map (fun p => p.2))[i]? = some x) : ∃ n, fs[i]? = some (n, x) := by
  rw [List.getElem?_map] at h
  cases h' : fs[i]? with
  | none => rw [h'] at h; cases h
  | some p => rw [h'] at h; cases h; exact ⟨p.1, rfl⟩

/-- C69: two values are equal (`==`) exactly if they are of the same shape, with the same names in the same order, and their contexts are equal (by the `==` of their type) at each place. -/
theorem C69_eq (eqT : T → T → Bool) (v : Value T) : ∀ w : Value T, v.eqv eqT w = true ↔
    SameShape v w ∧ ∀ path cs ds, ContextsTo v path cs → ContextsTo w path ds → List.Forall₂ (fun x y => eqT x y = true) cs ds := by
  suffices h : ∀ w : Value T, v.eqv eqT w = true ↔ SameShape v w ∧ CtxBy eqT v w from h
  induction v using Value.ind with
  | named fs c ih =>
    rintro ⟨d, y⟩
    rw [ctxBy_iff]
    constructor
    · intro h
      cases d with
      | composite d =>
        cases d with
        | named gs =>
          rw [Value.eqv, Bool.and_eq_true, ValueDef.eqv, Composite.eqv, eqvNamed_iff] at h
          obtain ⟨⟨h1, h2⟩, h3⟩ := h
          refine ⟨.named h1 fun i x y hx hy => ((ih x (List.mem_of_getElem? hx) _).1 (h2 i x y hx hy)).1, h3, ?_⟩
          intro i x y hx hy
          obtain ⟨n, hx⟩ := sub_of_getElem hx
          obtain ⟨m, hy⟩ := sub_of_getElem hy
          exact ((ih _ (List.mem_of_getElem? hx) _).1 (h2 i _ _ hx hy)).2
        | unnamed gs => simp [Value.eqv, ValueDef.eqv, Composite.eqv] at h
      | variant d => simp [Value.eqv, ValueDef.eqv] at h
      | bitSequence d => simp [Value.eqv, ValueDef.eqv] at h
      | primitive d => simp [Value.eqv, ValueDef.eqv] at h
    · rintro ⟨h1, h2, h3⟩
      cases h1 with
      | @named _ gs _ _ names sub =>
        rw [Value.eqv, Bool.and_eq_true, ValueDef.eqv, Composite.eqv, eqvNamed_iff]
        exact ⟨⟨names, fun i x y hx hy => (ih x (List.mem_of_getElem? hx) _).2 ⟨sub i x y hx hy, h3 i _ _ (by simp [Value.children, hx]) (by simp [Value.children, hy])⟩⟩, h2⟩
  | unnamed fs c ih =>
    rintro ⟨d, y⟩
    rw [ctxBy_iff]
    constructor
    · intro h
      cases d with
      | composite d =>
        cases d with
        | unnamed gs =>
          rw [Value.eqv, Bool.and_eq_true, ValueDef.eqv, Composite.eqv, eqvUnnamed_iff] at h
          obtain ⟨⟨h1, h2⟩, h3⟩ := h
          refine ⟨.unnamed h1 fun i x y hx hy => ((ih x (List.mem_of_getElem? hx) _).1 (h2 i x y hx hy)).1, h3, ?_⟩
          intro i x y hx hy
          exact ((ih _ (List.mem_of_getElem? hx) _).1 (h2 i _ _ hx hy)).2
        | named gs => simp [Value.eqv, ValueDef.eqv, Composite.eqv] at h
      | variant d => simp [Value.eqv, ValueDef.eqv] at h
      | bitSequence d => simp [Value.eqv, ValueDef.eqv] at h
      | primitive d => simp [Value.eqv, ValueDef.eqv] at h
    · rintro ⟨h1, h2, h3⟩
      cases h1 with
      | @unnamed _ gs _ _ names sub =>
        rw [Value.eqv, Bool.and_eq_true, ValueDef.eqv, Composite.eqv, eqvUnnamed_iff]
        exact ⟨⟨names, fun i x y hx hy => (ih x (List.mem_of_getElem? hx) _).2 ⟨sub i x y hx hy, h3 i _ _ (by simp [Value.children, hx]) (by simp [Value.children, hy])⟩⟩, h2⟩
  | vnamed n fs c ih =>
    rintro ⟨d, y⟩
    rw [ctxBy_iff]
    constructor
    · intro h
      cases d with
      | variant d =>
        obtain ⟨m, d⟩ := d
        cases d with
        | named gs =>
          rw [Value.eqv, Bool.and_eq_true, ValueDef.eqv, Variant.eqv, Bool.and_eq_true, Composite.eqv, eqvNamed_iff, beq_iff_eq] at h
          obtain ⟨⟨rfl, h1, h2⟩, h3⟩ := h
          refine ⟨.variantNamed h1 fun i x y hx hy => ((ih x (List.mem_of_getElem? hx) _).1 (h2 i x y hx hy)).1, h3, ?_⟩
          intro i x y hx hy
          obtain ⟨n, hx⟩ := sub_of_getElem hx
          obtain ⟨m, hy⟩ := sub_of_getElem hy
          exact ((ih _ (List.mem_of_getElem? hx) _).1 (h2 i _ _ hx hy)).2
        | unnamed gs => simp [Value.eqv, ValueDef.eqv, Variant.eqv, Composite.eqv] at h
      | composite d => simp [Value.eqv, ValueDef.eqv] at h
      | bitSequence d => simp [Value.eqv, ValueDef.eqv] at h
      | primitive d => simp [Value.eqv, ValueDef.eqv] at h
    · rintro ⟨h1, h2, h3⟩
      cases h1 with
      | @variantNamed _ _ gs _ _ names sub =>
        rw [Value.eqv, Bool.and_eq_true, ValueDef.eqv, Variant.eqv, Bool.and_eq_true, Composite.eqv, eqvNamed_iff]
        exact ⟨⟨beq_self_eq_true _, names, fun i x y hx hy => (ih x (List.mem_of_getElem? hx) _).2 ⟨sub i x y hx hy, h3 i _ _ (by simp [Value.children, hx]) (by simp [Value.children, hy])⟩⟩, h2⟩
  | vunnamed n fs c ih =>
    rintro ⟨d, y⟩
    rw [ctxBy_iff]
    constructor
    · intro h
      cases d with
      | variant d =>
        obtain ⟨m, d⟩ := d
        cases d with
        | unnamed gs =>
          rw [Value.eqv, Bool.and_eq_true, ValueDef.eqv, Variant.eqv, Bool.and_eq_true, Composite.eqv, eqvUnnamed_iff, beq_iff_eq] at h
          obtain ⟨⟨rfl, h1, h2⟩, h3⟩ := h
          refine ⟨.variantUnnamed h1 fun i x y hx hy => ((ih x (List.mem_of_getElem? hx) _).1 (h2 i x y hx hy)).1, h3, ?_⟩
          intro i x y hx hy
          exact ((ih _ (List.mem_of_getElem? hx) _).1 (h2 i _ _ hx hy)).2
        | named gs => simp [Value.eqv, ValueDef.eqv, Variant.eqv, Composite.eqv] at h
      | composite d => simp [Value.eqv, ValueDef.eqv] at h
      | bitSequence d => simp [Value.eqv, ValueDef.eqv] at h
      | primitive d => simp [Value.eqv, ValueDef.eqv] at h
    · rintro ⟨h1, h2, h3⟩
      cases h1 with
      | @variantUnnamed _ _ gs _ _ names sub =>
        rw [Value.eqv, Bool.and_eq_true, ValueDef.eqv, Variant.eqv, Bool.and_eq_true, Composite.eqv, eqvUnnamed_iff]
        exact ⟨⟨beq_self_eq_true _, names, fun i x y hx hy => (ih x (List.mem_of_getElem? hx) _).2 ⟨sub i x y hx hy, h3 i _ _ (by simp [Value.children, hx]) (by simp [Value.children, hy])⟩⟩, h2⟩
  | bits b c =>
    rintro ⟨d, y⟩
    rw [ctxBy_iff]
    constructor
    · intro h
      cases d with
      | bitSequence d => simp only [Value.eqv, ValueDef.eqv, Bool.and_eq_true, beq_iff_eq] at h; obtain ⟨rfl, h⟩ := h; exact ⟨.bits, h, by simp [Value.children]⟩
      | composite d => simp [Value.eqv, ValueDef.eqv] at h
      | variant d => simp [Value.eqv, ValueDef.eqv] at h
      | primitive d => simp [Value.eqv, ValueDef.eqv] at h
    · rintro ⟨h1, h2, h3⟩
      cases h1
      rw [Value.eqv, ValueDef.eqv, Bool.and_eq_true]
      exact ⟨beq_self_eq_true _, h2⟩
  | prim p c =>
    rintro ⟨d, y⟩
    rw [ctxBy_iff]
    constructor
    · intro h
      cases d with
      | primitive d =>
        simp only [Value.eqv, ValueDef.eqv, Bool.and_eq_true, prim_eqv] at h; obtain ⟨rfl, h⟩ := h; exact ⟨.prim, h, by simp [Value.children]⟩
      | composite d => simp [Value.eqv, ValueDef.eqv] at h
      | variant d => simp [Value.eqv, ValueDef.eqv] at h
      | bitSequence d => simp [Value.eqv, ValueDef.eqv] at h
    · rintro ⟨h1, h2, h3⟩
      cases h1
      rw [Value.eqv, ValueDef.eqv, Bool.and_eq_true, prim_eqv]
      exact ⟨rfl, h2⟩

/-- C69: if `==` of contexts says that they are the same, so does `==` of values. -/
theorem C69_eq_lawful (eqT : T → T → Bool) (he : ∀ x y, eqT x y = true ↔ x = y) (v w : Value T) : v.eqv eqT w = true ↔ v = w := value_eqv he v w

/-- C69: without contexts, exactly if they are of the same shape. -/
theorem C69_eq_without_context (v : Value T) (w : Value U) :
    v.removeContext.eqv (fun _ _ => true) w.removeContext = true ↔ SameShape v w := by
  rw [value_eqv (by simp)]
  constructor
  · intro h
    have := C02_remove_context_shape v
    rw [h] at this
    exact this.trans (C02_remove_context_shape w).symm
  · intro h
    exact (((C02_remove_context_shape v).symm.trans h).trans (C02_remove_context_shape w)).eq_of_unit

/-- C69: numbers that are equal but of the other kind are not equal as values; nor are the same fields in another order, nor `()` and `{}`. -/
theorem C69_apart (n : U128) (m : I128) (a b : Str) (hab : a ≠ b) (v w : Value Unit) :
    (Value.u128 n).eqv (fun _ _ => true) (.i128 m) = false ∧
    (Value.namedComposite [(a, v), (b, w)]).eqv (fun _ _ => true) (.namedComposite [(b, w), (a, v)]) = false ∧
    (Value.namedComposite []).eqv (fun _ _ => true) (.unnamedComposite []) = false := by
  refine ⟨by simp [Value.u128, Value.i128, Primitive.eqv, Value.eqv, ValueDef.eqv], ?_,
    by simp [Value.namedComposite, Value.unnamedComposite, Composite.mkNamed, Composite.mkUnnamed, Value.eqv, ValueDef.eqv, Composite.eqv]⟩
  rw [Bool.eq_false_iff, Ne, value_eqv (by simp)]
  intro h
  simp [Value.namedComposite, Composite.mkNamed] at h
  exact hab h.1.1

/-- C69: the conversions of composites, variants, bits and primitives keep them as they are, and those into `Value` and `ValueDef` agree. -/
theorem C69_into (c : Composite Unit) (v : Variant Unit) (b : List Bool) (x : PrimSource) :
    (Value.ofComposite c).value = .composite c ∧ ValueDef.ofComposite c = .composite c ∧
    (Value.ofVariant v).value = .variant v ∧ ValueDef.ofVariant v = .variant v ∧
    (Value.ofBits b).value = .bitSequence b ∧ ValueDef.ofBits b = (.bitSequence b : ValueDef Unit) ∧
    (Value.from x).value = .from x ∧ ValueDef.from x = (.ofPrimitive (.from x) : ValueDef Unit) := ⟨rfl, rfl, rfl, rfl, rfl, rfl, rfl, rfl⟩

/-- C69: those of vectors too: the values in order, each converted; with names, each with its name. -/
theorem C69_into_vec {K V : Type} (intoS : K → Str) (into : V → Value Unit) (vs : List V) (ps : List (K × V)) :
    (Value.fromVec into vs).value = .fromVec into vs ∧ ValueDef.fromVec into vs = .ofComposite (.fromVec into vs) ∧
    (∀ i : Nat, (Composite.fromVec into vs).vals[i]? = (vs[i]?).map into) ∧
    (Value.fromVecNamed intoS into ps).value = .fromVecNamed intoS into ps ∧ ValueDef.fromVecNamed intoS into ps = .ofComposite (.fromVecNamed intoS into ps) ∧
    (∀ i : Nat, (Composite.fromVecNamed intoS into ps).at (.idx i) = (ps[i]?).map (fun p => into p.2)) ∧
    (∀ fs : List (Str × Value Unit), Composite.fromVecNamed intoS into ps = .named fs → ∀ i : Nat, (fs[i]?).map (fun f : Str × Value Unit => f.1) = (ps[i]?).map (fun p : K × V => intoS p.1)) := by
  refine ⟨rfl, rfl, fun i => ?_, rfl, rfl, fun i => ?_, ?_⟩
  · simp [Composite.fromVec, Composite.vals]
  · simp [Composite.fromVecNamed, Composite.at, Function.comp_def]
  · intro fs h i
    simp only [Composite.fromVecNamed, Composite.named.injEq] at h
    subst h
    simp [Function.comp_def]

/-! ### Cases -/

/-- Contexts that are not equal to themselves, as NaN: then `==` of values is not reflexive. -/
example : (Value.mk (.primitive (.bool true)) 0 : Value Nat).eqv (fun x y => x == y && x != 0) (.mk (.primitive (.bool true)) 0) = false ∧
    (Value.mk (.composite (.named [(['a'], .mk (.bitSequence [true]) 1)])) 2 : Value Nat).eqv (fun x y => x == y && x != 0) (.mk (.composite (.named [(['a'], .mk (.bitSequence [true]) 1)])) 2) = true :=
  by simp [Value.eqv, ValueDef.eqv, Primitive.eqv, Composite.eqv, eqvNamed]

end SV
