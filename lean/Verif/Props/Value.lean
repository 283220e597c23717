import Verif.Proofs.Value
/-
Properties C01 - C04: values, contexts, navigation, conversions.
-/
namespace SV

variable {T U R S : Type}

/-! ### C01 -/

/-- C01: the result of `map_context` has the shape of the input; and the contexts along any path are
the outputs of the closure, run along that path only, starting from its initial state. -/
theorem C01_map_context (f : S → T → U × S) (s : S) (v : Value T) :
    SameShape v (v.mapContextS f s) ∧
    ∀ (p : List Nat) (ds : List U), ContextsTo (v.mapContextS f s) p ds ↔
      ∃ cs, ContextsTo v p cs ∧ ds = runClosure f s cs :=
  ⟨SameShape.map f v s, fun p ds => ⟨ContextsTo.unmap f, by rintro ⟨cs, h, rfl⟩; exact h.map f s⟩⟩

/-- C01: and `map_context` is determined by this: any value with that shape and those contexts is
the result. -/
theorem C01_map_context_unique (f : S → T → U × S) (s : S) (v : Value T) (w : Value U)
    (shape : SameShape v w)
    (ctx : ∀ p cs, ContextsTo v p cs → ContextsTo w p (runClosure f s cs)) :
    w = v.mapContextS f s := by
  refine ((((SameShape.map f v s).symm).trans shape).ext ?_).symm
  intro p ds h
  obtain ⟨cs, h1, rfl⟩ := ContextsTo.unmap f h
  exact ctx _ _ h1

/-- C01: mapping the identity does nothing. -/
theorem C01_map_id (v : Value T) : v.mapContext (fun t => t) = v := by
  induction v using Value.ind with
  | named fs c ih =>
    simp; rw [List.map_congr_left (g := id) (fun p hp => by simp [ih p hp])]; simp
  | unnamed fs c ih =>
    simp; rw [List.map_congr_left (g := id) (fun p hp => by simp [ih p hp])]; simp
  | vnamed n fs c ih =>
    simp; rw [List.map_congr_left (g := id) (fun p hp => by simp [ih p hp])]; simp
  | vunnamed n fs c ih =>
    simp; rw [List.map_congr_left (g := id) (fun p hp => by simp [ih p hp])]; simp
  | bits b c => simp
  | prim p c => simp

/-- C01: mapping twice is mapping the composition. -/
theorem C01_map_comp (f : T → U) (g : U → R) (v : Value T) :
    (v.mapContext f).mapContext g = v.mapContext (fun t => g (f t)) := by
  induction v using Value.ind with
  | named fs c ih => simp; intro a b h; exact ih _ h
  | unnamed fs c ih => simp; exact ih
  | vnamed n fs c ih => simp; intro a b h; exact ih _ h
  | vunnamed n fs c ih => simp; exact ih
  | bits b c => simp
  | prim p c => simp

/-- C01 for pure closures: each context is mapped. -/
theorem C01_map_context_pure (f : T → U) (v : Value T) (p : List Nat) (cs : List T)
    (h : ContextsTo v p cs) : ContextsTo (v.mapContext f) p (cs.map f) := by
  have e : ∀ cs : List T, runClosure (fun (s : Unit) t => (f t, s)) () cs = cs.map f := by
    intro cs; induction cs with
    | nil => rfl
    | cons c cs ih => simp [runClosure, ih]
  have := h.map (fun (s : Unit) t => (f t, s)) ()
  rw [e] at this
  exact this

/-- A counting closure on `((7), 8)`, contexts 10 / 11 / 12 / 13. -/
example : ContextsTo (.mk (.composite (.unnamed
      [.mk (.composite (.unnamed [.mk (.primitive (.bool true)) 12])) 11,
       .mk (.primitive (.bool false)) 13])) 10 : Value Nat) [0, 0] [10, 11, 12] ∧
    runClosure (fun (n : Nat) (c : Nat) => ((c, n), n + 1)) 0 [10, 11, 12] = [(10, 0), (11, 1), (12, 2)] := by
  refine ⟨.step rfl (.step rfl (.here _)), rfl⟩

/-! ### C02 -/

/-- C02: `remove_context` keeps the shape. -/
theorem C02_remove_context_shape (v : Value T) : SameShape v v.removeContext :=
  SameShape.map _ v ()

/-- C02: equal after removing contexts iff equal up to contexts. -/
theorem C02_remove_context_eq_iff (v : Value T) (w : Value U) :
    v.removeContext = w.removeContext ↔ SameShape v w := by
  constructor
  · intro h
    exact (C02_remove_context_shape v).trans (h ▸ (C02_remove_context_shape w).symm)
  · intro h
    exact (((C02_remove_context_shape v).symm.trans h).trans (C02_remove_context_shape w)).eq_of_unit

example : SameShape (.mk (.variant (.mk ['a'] (.unnamed [.mk (.primitive (.bool true)) 1]))) 2 : Value Nat)
    (.mk (.variant (.mk ['a'] (.unnamed [.mk (.primitive (.bool true)) 5]))) 6 : Value Nat) := by
  refine .variantUnnamed rfl ?_
  intro i x y hx hy
  match i with
  | 0 => simp at hx hy; subst hx; subst hy; exact .prim
  | i + 1 => simp at hx

/-! ### C03 -/

/-- C03: a single `at` finds precisely what the specification of navigation finds. -/
theorem C03_at (v w : Value T) (l : Loc) : v.at l = some w ↔ Step v l w := by
  have comp : ∀ {v : Value T} {c : Composite T}, v.fields? = some c →
      (c.at l = some w ↔ Step v l w) := by
    intro v c hc
    cases l with
    | str s =>
      cases c with
      | named fs =>
        simp only [Composite.at, findNamed_iff]
        constructor
        · rintro ⟨pre, post, rfl, h2⟩; exact .name hc h2
        · intro h
          cases h with
          | name fields first => rw [hc] at fields; cases fields; exact ⟨_, _, rfl, first⟩
      | unnamed vs =>
        simp only [Composite.at]
        constructor
        · intro h; cases h
        · intro h
          cases h with
          | name fields first => rw [hc] at fields; cases fields
    | idx i =>
      cases c with
      | named fs =>
        simp only [Composite.at, Option.map_eq_some_iff]
        constructor
        · rintro ⟨⟨k, w'⟩, h1, rfl⟩; exact .indexNamed hc h1
        · intro h
          cases h with
          | indexNamed fields nth => rw [hc] at fields; cases fields; exact ⟨_, nth, rfl⟩
          | indexUnnamed fields nth => rw [hc] at fields; cases fields
      | unnamed vs =>
        simp only [Composite.at]
        constructor
        · intro h; exact .indexUnnamed hc h
        · intro h
          cases h with
          | indexNamed fields nth => rw [hc] at fields; cases fields
          | indexUnnamed fields nth => rw [hc] at fields; cases fields; exact nth
  have none' : ∀ {v : Value T}, v.fields? = none → ¬ Step v l w := by
    intro v hv h
    cases h with
    | name f _ => rw [hv] at f; cases f
    | indexNamed f _ => rw [hv] at f; cases f
    | indexUnnamed f _ => rw [hv] at f; cases f
  obtain ⟨d, c⟩ := v
  cases d with
  | composite cm => simpa [Value.at, Value.value] using comp (v := .mk (.composite cm) c) rfl
  | variant vr =>
    obtain ⟨n, cm⟩ := vr
    simpa [Value.at, Value.value, Variant.at, Variant.values] using
      comp (v := .mk (.variant (.mk n cm)) c) rfl
  | bitSequence b =>
    simpa [Value.at, Value.value] using none' (v := .mk (.bitSequence b) c) rfl
  | primitive p =>
    simpa [Value.at, Value.value] using none' (v := .mk (.primitive p) c) rfl

theorem foldl_optAt (v w : Value T) (ls : List Loc) :
    ls.foldl optAt (some v) = some w ↔ Steps v ls w := by
  have none' : ∀ ls : List Loc, ls.foldl optAt (none : Option (Value T)) = none := by
    intro ls; induction ls with
    | nil => rfl
    | cons l ls ih => simpa [optAt] using ih
  induction ls generalizing v with
  | nil =>
    constructor
    · intro h; cases h; exact .nil _
    · intro h; cases h; rfl
  | cons l ls ih =>
    simp only [List.foldl_cons, optAt]
    constructor
    · intro h
      cases hv : v.at l with
      | none => rw [hv, none'] at h; cases h
      | some u => rw [hv] at h; exact .cons ((C03_at v u l).1 hv) ((ih u).1 h)
    · intro h
      cases h with
      | cons h t => rw [(C03_at _ _ l).2 h]; exact (ih _).2 t

/-- C03: a chain of `at` calls finds `w` iff the chain of locations leads to `w`; in all other cases it
is `None` (the function is total). -/
theorem C03_at_chain (v w : Value T) (ls : List Loc) : v.atPath ls = some w ↔ Steps v ls w := by
  have : v.atPath ls = ls.foldl optAt (some v) := by cases ls <;> rfl
  rw [this]; exact foldl_optAt v w ls

/-- C03: navigation commutes with mapping contexts (stateless closures). -/
theorem C03_at_map_context (f : T → U) (v : Value T) (l : Loc) :
    (v.mapContext f).at l = (v.at l).map (fun w => w.mapContext f) := by
  have hn : ∀ (s : Str) (fs : List (Str × Value T)),
      findNamed s (fs.map (fun p => (p.1, p.2.mapContext f))) =
        (findNamed s fs).map (fun w => w.mapContext f) := by
    intro s fs
    induction fs with
    | nil => rfl
    | cons p r ih =>
      simp only [List.map_cons, findNamed]
      split
      · rfl
      · exact ih
  induction v using Value.ind <;> cases l <;>
    simp [Value.at, Value.value, Variant.at, Variant.values, Composite.at, hn, Function.comp_def]

example : Steps (.mk (.composite (.named [(['a'], .mk (.variant (.mk ['v'] (.unnamed
      [.mk (.primitive (.bool true)) ()]))) ())])) () : Value Unit) [.str ['a'], .idx 0]
    (.mk (.primitive (.bool true)) ()) :=
  .cons (.name (pre := []) rfl (by simp)) (.cons (.indexUnnamed rfl rfl) (.nil _))

/-! ### C04 -/

/-- The mathematical integer a source number denotes. -/
def PrimSource.int? : PrimSource → Option Int
  | .u128 n => some n.val
  | .u64 n => some n.toNat
  | .usize n => some n.toNat
  | .u32 n => some n.toNat
  | .u16 n => some n.toNat
  | .u8 n => some n.toNat
  | .i128 n => some n.val
  | .i64 n => some n.toInt
  | .isize n => some n.toInt
  | .i32 n => some n.toInt
  | .i16 n => some n.toInt
  | .i8 n => some n.toInt
  | _ => none

/-- The Rust type of the source is an unsigned integer type. -/
def PrimSource.unsigned : PrimSource → Prop
  | .u128 _ | .u64 _ | .usize _ | .u32 _ | .u16 _ | .u8 _ => True
  | _ => False

/-- C04: converting a number into a value keeps the number; unsigned sources are read back by
`as_u128`, signed by `as_i128`, and never by the other. -/
theorem C04_from_int (x : PrimSource) (n : Int) (h : x.int? = some n) :
    (x.unsigned → ∃ u, (Value.from x).asU128 = some u ∧ (u.val : Int) = n ∧ (Value.from x).asI128 = none) ∧
    (¬ x.unsigned → ∃ i, (Value.from x).asI128 = some i ∧ i.val = n ∧ (Value.from x).asU128 = none) := by
  cases x <;> cases h <;>
    simp [PrimSource.unsigned, Value.from, Primitive.from, Value.withoutContext, Value.asU128, Value.asI128,
      Value.value, Primitive.asU128, Primitive.asI128]

/-- C04: bools, chars and strings are kept. -/
theorem C04_from_text :
    (∀ b, (Value.from (.bool b)).asBool = some b) ∧ (∀ c, (Value.from (.char c)).asChar = some c) ∧
    (∀ s, (Value.from (.string s)).asStr = some s) ∧ (∀ s, (Value.from (.str s)).asStr = some s) :=
  ⟨fun _ => rfl, fun _ => rfl, fun _ => rfl, fun _ => rfl⟩

/-- C04: each accessor answers exactly for primitives of its kind, whatever the context. -/
theorem C04_accessors (v : Value T) :
    (∀ x, v.asU128 = some x ↔ v.value = .primitive (.u128 x)) ∧
    (∀ x, v.asI128 = some x ↔ v.value = .primitive (.i128 x)) ∧
    (∀ x, v.asBool = some x ↔ v.value = .primitive (.bool x)) ∧
    (∀ x, v.asChar = some x ↔ v.value = .primitive (.char x)) ∧
    (∀ x, v.asStr = some x ↔ v.value = .primitive (.string x)) := by
  obtain ⟨d, c⟩ := v
  cases d with
  | primitive p =>
    cases p <;> simp [Value.asU128, Value.asI128, Value.asBool, Value.asChar, Value.asStr, Value.value,
      Primitive.asU128, Primitive.asI128, Primitive.asBool, Primitive.asChar, Primitive.asStr]
  | _ => simp [Value.asU128, Value.asI128, Value.asBool, Value.asChar, Value.asStr, Value.value]

/-- C04: `from_bytes` stores byte `i` at index `i`, as an unsigned number, and has as many children as
there are bytes. -/
theorem C04_from_bytes (bs : List UInt8) (i : Nat) :
    ((Value.fromBytes bs).at (.idx i)).bind Value.asU128 = (bs[i]?).map U128.ofU8 ∧
    (Value.fromBytes bs).children.length = bs.length := by
  constructor
  · simp [Value.fromBytes, Value.unnamedComposite, Value.at, Value.value, Composite.at, Composite.mkUnnamed]
    cases bs[i]? <;> rfl
  · simp [Value.fromBytes, Value.unnamedComposite, Value.children, Composite.mkUnnamed]

/-- C04: a `Vec` becomes a composite with item `i` at index `i`, none under any name, and nothing else. -/
theorem C04_from_vec {V : Type} (into : V → Value Unit) (vals : List V) :
    (∀ i, (Value.fromVec into vals).at (.idx i) = (vals[i]?).map into) ∧
    (∀ k, (Value.fromVec into vals).at (.str k) = none) ∧
    (Value.fromVec into vals).children.length = vals.length := by
  simp [Value.fromVec, Value.withoutContext, Value.at, Value.value, Composite.at, Value.children]

/-- C04: a `Vec` of pairs becomes a composite with the value of pair `i` at index `i`; a name finds the value of the first pair
with that name, and nothing if there is none. -/
theorem C04_from_vec_named {K V : Type} (intoS : K → Str) (into : V → Value Unit) (vals : List (K × V)) :
    (∀ i, (Value.fromVecNamed intoS into vals).at (.idx i) = (vals[i]?).map (fun p => into p.2)) ∧
    (∀ k, (∀ p ∈ vals, intoS p.1 ≠ k) → (Value.fromVecNamed intoS into vals).at (.str k) = none) ∧
    (∀ before after k v, vals = before ++ (k, v) :: after → (∀ p ∈ before, intoS p.1 ≠ intoS k) →
      (Value.fromVecNamed intoS into vals).at (.str (intoS k)) = some (into v)) ∧
    (Value.fromVecNamed intoS into vals).children.length = vals.length := by
  refine ⟨?_, ?_, ?_, ?_⟩
  · intro i
    simp only [Value.fromVecNamed, Value.withoutContext, Value.at, Value.value, Composite.at, List.getElem?_map]
    cases vals[i]? <;> rfl
  · intro k h
    simp only [Value.fromVecNamed, Value.withoutContext, Value.at, Value.value, Composite.at]
    induction vals with
    | nil => rfl
    | cons p ps ih =>
      have h1 := h p (by simp)
      simp only [List.map_cons, findNamed, if_neg (Ne.symm h1)]
      exact ih (fun q hq => h q (by simp [hq]))
  · rintro before after k v rfl h
    simp only [Value.fromVecNamed, Value.withoutContext, Value.at, Value.value, Composite.at]
    induction before with
    | nil => simp [findNamed]
    | cons p ps ih =>
      have h1 := h p (by simp)
      simp only [List.cons_append, List.map_cons, findNamed, if_neg (Ne.symm h1)]
      exact ih (fun q hq => h q (by simp [hq]))
  · simp [Value.fromVecNamed, Value.withoutContext, Value.children]

/-- C04: the constructors make what their names say, without looking at or changing the parts. -/
theorem C04_constructors (fs : List (Str × Value Unit)) (vs : List (Value Unit)) (n : Str) (bs : List Bool) :
    (Value.namedComposite fs).value = .composite (.named fs) ∧
    (Value.unnamedComposite vs).value = .composite (.unnamed vs) ∧
    (Value.namedVariant n fs).value = .variant (.mk n (.named fs)) ∧
    (Value.unnamedVariant n vs).value = .variant (.mk n (.unnamed vs)) ∧
    (Value.bitSequence bs).value = .bitSequence bs := by
  simp [Value.namedComposite, Value.unnamedComposite, Value.namedVariant, Value.unnamedVariant, Value.bitSequence, Value.value,
    Composite.mkNamed, Composite.mkUnnamed, Variant.namedFields, Variant.unnamedFields]

/-- Two pairs with the same name: the name finds the first, the index each. -/
example : (Value.fromVecNamed id Value.bool [(['a'], true), (['b'], false), (['a'], false)]).at (.str ['a']) = some (.bool true) ∧
    (Value.fromVecNamed id Value.bool [(['a'], true), (['b'], false), (['a'], false)]).at (.idx 2) = some (.bool false) := ⟨rfl, rfl⟩

/-- C04: `len`, `is_empty`, `values` agree with indexing. -/
theorem C04_composite_iter (c : Composite T) :
    c.vals.length = c.len ∧ (c.isEmpty = true ↔ c.len = 0) ∧
    ∀ i, c.vals[i]? = c.at (.idx i) := by
  cases c with
  | named fs => simp [Composite.vals, Composite.len, Composite.isEmpty, Composite.at]
  | unnamed vs => simp [Composite.vals, Composite.len, Composite.isEmpty, Composite.at]

example : (PrimSource.i8 (-5)).int? = some (-5) ∧ ¬ (PrimSource.i8 (-5)).unsigned := by
  simp [PrimSource.int?, PrimSource.unsigned]

end SV
