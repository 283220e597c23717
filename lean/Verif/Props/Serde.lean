import Verif.Props.Value
import Verif.Proofs.SerdePlays
import Verif.Props.EncodeRules
/-
Properties C41 to C50, and C30 for serde: values through serde. `Value.serialize` and `Ser.toValue` are `to_value`, `Value.der` with `deValue`, `Ty.de`, .. is `from_value`.
-/
namespace SV

variable {T : Type}

/-! ### C30 -/

/-- C30: contexts do not influence what a value is serialized to. -/
theorem C30_serialize {U S : Type} (f : S → T → U × S) (s : S) (v : Value T) : (v.mapContextS f s).serialize = v.serialize := serialize_mapContext f v s

/-- C30: nor what any type deserialized from a value is. -/
theorem C30_deserialize {U S : Type} (f : S → T → U × S) (s : S) (v : Value T) (t : Ty) : t.de (v.mapContextS f s).der = t.de v.der := by rw [der_mapContext]

/-- A value with every kind of node, for examples. -/
def exAll : Value Nat :=
  .mk (.composite (.named [("a".toList, .mk (.variant (.mk "Some".toList (.unnamed [.mk (.primitive (.u128 ⟨300, by decide⟩)) 1]))) 2),
    ("b".toList, .mk (.bitSequence [true, false]) 3), ("c".toList, .mk (.primitive (.i128 ⟨-5, by decide, by decide⟩)) 4), ("d".toList, .mk (.composite (.unnamed [])) 5)])) 6

example : (exAll.mapContextS (fun (s : Nat) c => (s + c, s)) 9).serialize = exAll.serialize := C30_serialize _ _ _
example : (exAll.mapContextS (fun (s : Nat) c => (s + c, s)) 9).context = 15 := rfl

/-! ### C41 -/

/-- C41: `to_value` of a value never fails, and gives the value with the variants, bit sequences and 256 bit numbers flattened. -/
theorem C41_to_value (v : Value T) : ∃ w, v.serialize.toValue = .ok w ∧ Flat v w ∧ ∀ u, Flat v u → u = w := by
  obtain ⟨w, h⟩ := serialize_total v
  refine ⟨w, h, serialize_flat.1 h, fun u hu => ?_⟩
  have := serialize_flat.2 hu
  rw [h] at this
  cases this
  rfl

/-- C41: `from_value::<Value>` succeeds precisely in the cases of `Back`, with that result; otherwise it is an error. -/
theorem C41_from_value (v : Value T) (w : Value Unit) : deValue v.der = some w ↔ Back v w := back_iff

/-- C41: `from_value::<Value>` gives the same value again (without contexts) if, and only if, there are no 256 bit numbers and no named composites that look like bit sequences. -/
theorem C41_same (v : Value T) : deValue v.der = some v.removeContext ↔ SerdeSafe v := by
  rw [back_iff]
  exact ⟨back_safe v, safe_back⟩

/-- C41: a composite deserializes from itself: same fields, without contexts. -/
theorem C41_composite (f : Composite T) (h : ∀ v ∈ f.vals, SerdeSafe v) (c : T) : ∃ g, deComposite (.mk f.ask) = some g ∧ SameShape (.mk (.composite f) c) (.mk (.composite g) ()) := by
  cases f with
  | named fs =>
    refine ⟨_, deComposite_safe _ h c _ (removeContext_named fs c), ?_⟩
    rw [← removeContext_named fs c]
    exact C02_remove_context_shape _
  | unnamed vs =>
    refine ⟨_, deComposite_safe _ h c _ (removeContext_unnamed vs c), ?_⟩
    rw [← removeContext_unnamed vs c]
    exact C02_remove_context_shape _

/-- C41: a variant deserializes from itself: same name and fields, without contexts. -/
theorem C41_variant (n : Str) (f : Composite T) (h : ∀ v ∈ f.vals, SerdeSafe v) (c : T) :
    ∃ g, deVariant (.mk (Variant.mk n f).ask) = some (.mk n g) ∧ SameShape (.mk (.composite f) c) (.mk (.composite g) ()) := by
  obtain ⟨g, h1, h2⟩ := C41_composite f h c
  exact ⟨g, by rw [deVariant_ask, h1]; rfl, h2⟩

/-- C41: a primitive deserializes from itself, except that `I256` becomes `U256` with the same bytes. -/
theorem C41_primitive (p : Primitive) (h : ∀ b, p ≠ .i256 b) : dePrimitive (.mk p.ask) = some p := by
  rw [dePrimitive_ask]
  cases p <;> first | rfl | exact absurd rfl (h _)

/-- C41: the one exception among the primitives: an `I256` is read back as the `U256` of the same 32 bytes (serde has no type for either, and both are presented in the same way). -/
theorem C41_i256 (b : Bytes32) : dePrimitive (.mk (Primitive.i256 b).ask) = some (.u256 b) := by rw [dePrimitive_ask]

theorem accept_u8 (n m : Num) : acceptNum .u8 n = some m ↔ n.ty ≠ .u128 ∧ n.ty ≠ .i128 ∧ m.ty = .u8 ∧ m.val = n.val := by
  constructor
  · intro h
    have h2 := acceptNum_some h
    unfold acceptNum at h
    split at h
    · next h1 => exact ⟨by rw [h1]; decide, by rw [h1]; decide, h2⟩
    · split at h
      · cases h
      · next h3 =>
        simp only [not_and_or, not_or] at h3
        rcases h3 with h3 | h3 | h3
        · exact ⟨h3.1, h3.2, h2⟩
        · exact absurd (by decide) h3
        · exact absurd (by decide) h3
  · rintro ⟨h1, h2, h3, h4⟩
    unfold acceptNum
    split
    · next h5 => rw [num_ext (h3.trans h5.symm) h4]
    · rw [if_neg (by rintro ⟨h | h, -⟩ <;> contradiction)]
      exact ofInt?_eq_some.2 ⟨h3, h4⟩

/-- C41: a primitive is read from a sequence of numbers precisely if they are 32 numbers of any types but the 128 bit ones, all between 0 and 255; it is then the 256 bit
number with these bytes. -/
theorem C41_primitive_from_numbers (d : Der) (closed : Bool) (l : List Der) (h : d.visit .any = .seq closed l) (ns : List Num)
    (hn : List.Forall₂ (fun e n => e.visit (.num .u8) = .num n) l ns) (p : Primitive) :
    dePrimitive d = some p ↔ ∃ b, p = .u256 b ∧ (∀ n ∈ ns, n.ty ≠ .u128 ∧ n.ty ≠ .i128) ∧ ns.map (fun n => n.val) = b.bytes.map (fun x => (x.toNat : Int)) := by
  have key : ∀ (l : List Der) (ns : List Num), List.Forall₂ (fun e n => e.visit (.num .u8) = .num n) l ns → ∀ bs : List UInt8,
      ((∃ ms, allOf (deNum .u8) l = some ms ∧ ms.map Num.toU8 = bs) ↔ (∀ n ∈ ns, n.ty ≠ .u128 ∧ n.ty ≠ .i128) ∧ ns.map (fun n => n.val) = bs.map (fun x => (x.toNat : Int))) := by
    intro l ns h
    induction h with
    | nil =>
      intro bs
      simp only [allOf]
      constructor
      · rintro ⟨ms, h1, h2⟩; cases h1; subst h2; simp
      · rintro ⟨-, h⟩; cases bs with
        | nil => exact ⟨[], rfl, rfl⟩
        | cons b bs => simp at h
    | @cons e n l ns he _ ih =>
      intro bs
      have hd : deNum .u8 e = acceptNum .u8 n := by simp only [deNum, he]
      constructor
      · rintro ⟨ms, h1, h2⟩
        rw [allOf, hd] at h1
        split at h1
        · cases h1
        · next m hm =>
          split at h1
          · cases h1
          · next ms' hms =>
            cases h1
            subst h2
            obtain ⟨a1, a2, a3, a4⟩ := (accept_u8 n m).1 hm
            obtain ⟨b1, b2⟩ := (ih (ms'.map Num.toU8)).1 ⟨ms', hms, rfl⟩
            refine ⟨by simpa using ⟨⟨a1, a2⟩, b1⟩, ?_⟩
            simp only [List.map_cons, b2, List.cons.injEq, and_true]
            have g1 := m.ge
            have g2 := m.lt
            rw [a3] at g1 g2
            simp only [NumTy.lo, NumTy.hi] at g1 g2
            rw [← a4]
            simp only [Num.toU8]
            rw [UInt8.toNat_ofNat_of_lt' (by simp only [UInt8.size]; omega)]
            omega
      · rintro ⟨h1, h2⟩
        cases bs with
        | nil => simp at h2
        | cons b bs =>
          simp only [List.map_cons, List.cons.injEq] at h2
          obtain ⟨ms, h3, h4⟩ := (ih bs).2 ⟨fun n hn => h1 n (by simp [hn]), h2.2⟩
          have hb := b.toNat_lt
          have hm : acceptNum .u8 n = some ⟨.u8, n.val, by rw [h2.1]; simp only [NumTy.lo]; omega, by rw [h2.1]; simp only [NumTy.hi]; omega⟩ :=
            (accept_u8 n _).2 ⟨(h1 n (by simp)).1, (h1 n (by simp)).2, rfl, rfl⟩
          refine ⟨_ :: ms, by rw [allOf, hd, hm]; simp only [h3]; rfl, ?_⟩
          simp only [List.map_cons, h4, List.cons.injEq, and_true, Num.toU8, h2.1, Int.toNat_natCast]
          exact UInt8.ofNat_toNat
  simp only [dePrimitive, h]
  constructor
  · intro hp
    split at hp
    · cases hp
    · next ms hms =>
      unfold bytes32? at hp
      split at hp
      · cases hp
        have := (key l ns hn _).1 ⟨ms, hms, rfl⟩
        exact ⟨_, rfl, this.1, this.2⟩
      · cases hp
  · rintro ⟨b, rfl, h1⟩
    obtain ⟨ms, h2, h3⟩ := (key l ns hn b.bytes).2 h1
    simp only [h2, h3, bytes32?_bytes]

/-- C41 for what a JSON parser makes of a list of 32 numbers: numbers of type `u64`. -/
example : dePrimitive (.mk fun _ => .seq false (List.replicate 32 (.mk fun _ => .num ⟨.u64, 200, by decide, by decide⟩))) = some (.u256 ⟨List.replicate 32 200, rfl⟩) := by
  rw [C41_primitive_from_numbers _ false _ rfl (List.replicate 32 ⟨.u64, 200, by decide, by decide⟩) (by repeat constructor)]
  exact ⟨_, rfl, by intro n hn; rw [List.eq_of_mem_replicate hn]; decide, by decide⟩

theorem exAll_safe : SerdeSafe exAll := by
  refine .named (by rintro p ⟨⟩; decide) ?_
  simp only [List.forall_mem_cons]
  refine ⟨.variantUnnamed ?_, .bits, .prim (fun _ => ⟨by simp, by simp⟩), .unnamed (by simp), by simp⟩
  simp only [List.forall_mem_cons]
  exact ⟨.prim (fun _ => ⟨by simp, by simp⟩), by simp⟩

example : deValue exAll.der = some exAll.removeContext := (C41_same _).2 exAll_safe
/-- The exceptions are real: a named composite that looks like a bit sequence becomes one, .. -/
example : deValue (Value.mk (.composite (.named [("__bitvec__values__".toList, .mk (.composite (.unnamed [.bool true])) ()), ("x".toList, .bool false)])) ()).der =
    some (.mk (.bitSequence [true]) ()) := rfl
/-- .. or fails. -/
example : deValue (Value.mk (.composite (.named [("__bitvec__values__".toList, .bool true)])) ()).der = none := rfl
example : exAll.serialize.toValue = .ok (.mk (.composite (.named [
    ("a".toList, .mk (.composite (.named [("name".toList, .string "Some".toList), ("values".toList, .mk (.composite (.unnamed [.u128 ⟨300, by decide⟩])) ())])) ()),
    ("b".toList, .mk (.composite (.named [("__bitvec__values__".toList, .mk (.composite (.unnamed [.bool true, .bool false])) ())])) ()),
    ("c".toList, .i128 ⟨-5, by decide, by decide⟩), ("d".toList, .mk (.composite (.unnamed [])) ())])) ()) := rfl

/-! ### C42 -/

/-- C42: `to_value` maps the serde data model to values as documented (`StandsFor`). -/
theorem C42_to_value (s : Ser) (v : Value Unit) : s.toValue = .ok v ↔ StandsFor s v := toValue_ok_iff

/-- C42: it fails only for floating point numbers, for map keys that are not strings or characters, and if an implementation of `Serialize` fails by itself; the error names one such reason that is present. -/
theorem C42_errors (s : Ser) (e : SerErr) (h : s.toValue = .error e) : Rejected s e := toValue_rejected s e h

/-- C42: and it always fails if there is such a reason anywhere in the data. -/
theorem C42_rejects (s : Ser) (e : SerErr) (h : Rejected s e) : ∃ e', s.toValue = .error e' := by
  cases hs : s.toValue with
  | ok v => exact absurd hs (rejected_not_ok h v)
  | error e' => exact ⟨e', rfl⟩

/-- `{ a: Some(-3i16), b: ('x', [1u8, 2]) }` as data, for examples. -/
def exSer : Ser := .struct [("a".toList, .some (.num ⟨.i16, -3, by decide, by decide⟩)), ("b".toList, .tuple [.char 'x', .bytes [1, 2]])]

example : exSer.toValue = .ok (.namedComposite [("a".toList, .variant "Some".toList (.unnamed [.i128 ⟨-3, by decide, by decide⟩])),
    ("b".toList, .unnamedComposite [.char 'x', .unnamedComposite [exU 1, exU 2]])]) := rfl
example : (Ser.seq [.bool true, .map [(.char 'k', .f32)]]).toValue = .error .floats := rfl
example : Rejected (.seq [.bool true, .map [(.char 'k', .f32)]]) .floats := C42_errors _ _ rfl
example : (Ser.map [(.num ⟨.u8, 1, by decide, by decide⟩, .unit)]).toValue = .error .mapKey := rfl

/-! ### C43 -/

/-- C43: reading a value as an integer type gives a number precisely if the value holds a number that fits, and then it is that number; in all other cases it is an error. -/
theorem C43_numbers (t : NumTy) (v : Value T) (m : Num) : deNum t v.der = some m ↔ v.number? = some m.val ∧ m.ty = t := deNum_iff t v m

/-- C43: so it succeeds if and only if the number fits. -/
theorem C43_fits (t : NumTy) (v : Value T) : (∃ m, deNum t v.der = some m) ↔ ∃ n, v.number? = some n ∧ t.Holds n := by
  constructor
  · rintro ⟨m, h⟩
    obtain ⟨h1, h2⟩ := (deNum_iff t v m).1 h
    exact ⟨_, h1, (holds_iff _ _).2 (by rw [← h2]; exact ⟨m.ge, m.lt⟩)⟩
  · rintro ⟨n, h1, h2⟩
    obtain ⟨h3, h4⟩ := (holds_iff _ _).1 h2
    exact ⟨⟨t, n, h3, h4⟩, (deNum_iff t v _).2 ⟨h1, rfl⟩⟩

example : deNum .u8 (exU 255).der = some ⟨.u8, 255, by decide, by decide⟩ := rfl
example : deNum .u8 (exU 256).der = none := rfl
example : deNum .i8 (exU 128).der = none := rfl
example : deNum .u128 (Value.i128 ⟨-1, by decide, by decide⟩).der = none := rfl

/-! ### C44 -/

/-- C44: a value is read as an `Option` precisely if it is the variant `None` without fields, or the variant `Some` with one unnamed field that is read as the inner type; anything else is an error. -/
theorem C44_option (t : Ty) (v : Value T) (d : Dat) : (Ty.option t).de v.der = some d ↔
    (∃ c, v = .mk (.variant (.mk "None".toList (.unnamed []))) c ∧ d = .none) ∨
    (∃ c w x, v = .mk (.variant (.mk "Some".toList (.unnamed [w]))) c ∧ t.de w.der = some x ∧ d = .some x) := deOption_iff t v d

example : (Ty.option (.num .u8)).de (Value.variant "Some".toList (.unnamed [exU 7])).der = some (.some (.num ⟨.u8, 7, by decide, by decide⟩)) := rfl
example : (Ty.option (.num .u8)).de (exU 7).der = none := rfl

/-! ### C45 -/

/-- C45: numbers are serialized as they are, with the smallest integer type of their signedness that holds them. -/
theorem C45_u128 (n : U128) : ∃ m : Num, (Primitive.u128 n).serialize = .num m ∧ m.val = n.val ∧ m.ty.signed = false ∧
    ∀ t : NumTy, t.signed = false → t.Holds n.val → m.ty.bits ≤ t.bits := serialize_u128 n

/-- C45: likewise for signed numbers. -/
theorem C45_i128 (n : I128) : ∃ m : Num, (Primitive.i128 n).serialize = .num m ∧ m.val = n.val ∧ m.ty.signed = true ∧
    ∀ t : NumTy, t.signed = true → t.Holds n.val → m.ty.bits ≤ t.bits := serialize_i128 n

/-- C45: 256 bit numbers, signed or not, are serialized as tuples of 32 bytes, each of type `u8`. -/
theorem C45_256 (b : Bytes32) : ∃ xs, (Primitive.u256 b).serialize = .tuple xs ∧ (Primitive.i256 b).serialize = .tuple xs ∧ xs.length = 32 ∧
    ∀ (i : Nat) (x : Ser) (y : UInt8), xs[i]? = some x → b.bytes[i]? = some y → ∃ n : Num, x = .num n ∧ n.ty = .u8 ∧ n.val = y.toNat := by
  refine ⟨_, rfl, rfl, by simp [b.len], ?_⟩
  intro i x y hx hy
  rw [List.getElem?_map, hy] at hx
  cases hx
  exact ⟨_, rfl, rfl, rfl⟩

example : (Primitive.u128 ⟨255, by decide⟩).serialize = .num ⟨.u8, 255, by decide, by decide⟩ := rfl
example : (Primitive.u128 ⟨65536, by decide⟩).serialize = .num ⟨.u32, 65536, by decide, by decide⟩ := rfl
example : (Primitive.i128 ⟨-129, by decide, by decide⟩).serialize = .num ⟨.i16, -129, by decide, by decide⟩ := rfl

/-! ### C46 -/

/-- C46: a bit sequence that goes through a self-describing format comes back with the same bits. -/
theorem C46_bits (b : List Bool) (c : T) (d : Der) (h : Plays d (Value.mk (.bitSequence b) c).serialize) : deValue d = some (.mk (.bitSequence b) ()) := bits_plays h

/-- C46: so does one that goes through a value. -/
theorem C46_bits_value (b : List Bool) (c : T) : ∃ w, (Value.mk (.bitSequence b) c).serialize.toValue = .ok w ∧ deValue w.der = some (.mk (.bitSequence b) ()) :=
  ⟨_, serialize_bits b, back_iff.2 (.bitsLike rfl (boolList_iff.2 rfl))⟩

/-- C46: and any value without fields called like the marker of bit sequences comes back from a self-describing format, with its bit sequences as they were, and all else as
described by `Restores`. -/
theorem C46_formats (v : Value T) (hv : NoBitName v) (d : Der) (h : Plays d v.serialize) : ∃ w, deValue d = some w ∧ Restores v w := plays_restores v hv d h

/-- C46: likewise through `to_value` and `from_value`. -/
theorem C46_values (v : Value T) (hv : NoBitName v) : ∃ w u, v.serialize.toValue = .ok w ∧ deValue w.der = some u ∧ Restores v u := by
  obtain ⟨w, h1, h2, -⟩ := C41_to_value v
  obtain ⟨u, h3, h4⟩ := flat_restores h2 hv
  exact ⟨w, u, h1, back_iff.2 h3, h4⟩

/-- A deserializer that answers the same to everything, for examples. -/
def exDer (r : Reply) : Der := .mk fun _ => r

/-- `{"__bitvec__values__":[true,false]}` in a format. -/
def exBits : Der := exDer (.map true [(exDer (.str "__bitvec__values__".toList), exDer (.seq true [exDer (.bool true), exDer (.bool false)]))])

theorem exBits_plays : Plays exBits (Value.mk (.bitSequence [true, false]) ()).serialize := by
  refine .map (fun a _ => rfl) rfl ?_ ?_
  · intro i e x h1 h2
    match i with
    | 0 => cases h1; cases h2; exact .str fun a _ => rfl
    | i + 1 => cases h1
  · intro i e x h1 h2
    match i with
    | 0 =>
      cases h1; cases h2
      refine .seq (fun a _ => rfl) rfl ?_
      intro i e x h1 h2
      match i with
      | 0 => cases h1; cases h2; exact .bool fun a _ => rfl
      | 1 => cases h1; cases h2; exact .bool fun a _ => rfl
      | i + 2 => cases h1
    | i + 1 => cases h1

example : deValue exBits = some (.mk (.bitSequence [true, false]) ()) := C46_bits _ () _ exBits_plays
example : NoBitName exAll := by
  refine .named (by rintro p ⟨⟩; decide) ?_
  simp only [List.forall_mem_cons]
  exact ⟨.variant (d := 0) (.unnamed (by simp only [List.forall_mem_cons]; exact ⟨.prim, by simp⟩)), .bits, .prim, .unnamed (by simp), by simp⟩

/-! ### C47 -/

/-- C47: a map is read as a `Variant` precisely if its keys are all `name` or `values`, with something that can be read at each (a string, a composite), and both are there; of repeated keys the last counts.
The order of the keys does not matter. -/
theorem C47_map (d : Der) (closed : Bool) (l : List (Der × Der)) (h : d.ask .any = .map closed l) (n : Str) (f : Composite Unit) :
    deVariant d = some (.mk n f) ↔ (∀ p ∈ l, GoodEntry p) ∧ (∃ x, LastEntry l "name".toList x ∧ deString x = some n) ∧ (∃ x, LastEntry l "values".toList x ∧ deComposite x = some f) := by
  have hv : d.visit .any = .map closed l := by unfold Der.visit; rw [h]
  have key : deVariant d = some (.mk n f) ↔ variantLoop l none none = some (some n, some f) := by
    unfold deVariant
    rw [hv]
    simp only
    split
    · next n' c' h1 => rw [h1]; simp
    · next h1 =>
      constructor
      · intro h; cases h
      · intro h; exact absurd h (h1 _ _)
  rw [key, variantLoop_iff]
  simp

/-- C47: a variant serializes to a map that is read as the same variant by a self-describing format, with fields as described by `Restores`. -/
theorem C47_formats (n : Str) (f : Composite T) (c : T) (hf : ∀ v ∈ f.vals, NoBitName v) (d : Der) (h : Plays d (Variant.mk n f).serialize) :
    ∃ g, deVariant d = some (.mk n g) ∧ Restores (.mk (.composite f) c) (.mk (.composite g) ()) := by
  rw [Variant.serialize] at h
  obtain ⟨closed, ds, h1, h2⟩ := plays_map h
  cases h2 with
  | @cons e1 _ _ _ h3 h4 =>
    cases h4 with
    | @cons e2 _ _ _ h5 h6 =>
      cases h6
      obtain ⟨k1, x1⟩ := e1
      obtain ⟨k2, x2⟩ := e2
      obtain ⟨g, hg, hr⟩ := composite_plays c hf h5.2
      refine ⟨g, (C47_map d closed _ (h1 .any trivial) n g).2 ⟨?_, ⟨x1, ⟨[], k1, [(k2, x2)], rfl, deString_plays h3.1, ?_⟩, deString_plays h3.2⟩,
        ⟨x2, ⟨[(k1, x1)], k2, [], rfl, deString_plays h5.1, by simp⟩, hg⟩⟩, hr⟩
      · intro p hp
        simp only [List.mem_cons, List.not_mem_nil, or_false] at hp
        rcases hp with rfl | rfl
        · exact .inl ⟨deString_plays h3.1, n, deString_plays h3.2⟩
        · exact .inr ⟨deString_plays h5.1, g, hg⟩
      · intro p hp
        rw [List.mem_singleton] at hp
        subst hp
        rw [deString_plays h5.1]
        exact fun h => name_ne_values (Option.some.inj h).symm

/-- C47: the same map with its keys in the other order is read as the same variant. -/
theorem C47_order (n : Str) (f : Composite T) (c : T) (hf : ∀ v ∈ f.vals, NoBitName v) (d : Der)
    (h : Plays d (.map [(.str "values".toList, f.serialize), (.str "name".toList, .str n)])) :
    ∃ g, deVariant d = some (.mk n g) ∧ Restores (.mk (.composite f) c) (.mk (.composite g) ()) := by
  obtain ⟨closed, ds, h1, h2⟩ := plays_map h
  cases h2 with
  | @cons e1 _ _ _ h3 h4 =>
    cases h4 with
    | @cons e2 _ _ _ h5 h6 =>
      cases h6
      obtain ⟨k1, x1⟩ := e1
      obtain ⟨k2, x2⟩ := e2
      obtain ⟨g, hg, hr⟩ := composite_plays c hf h3.2
      refine ⟨g, (C47_map d closed _ (h1 .any trivial) n g).2 ⟨?_, ⟨x2, ⟨[(k1, x1)], k2, [], rfl, deString_plays h5.1, by simp⟩, deString_plays h5.2⟩,
        ⟨x1, ⟨[], k1, [(k2, x2)], rfl, deString_plays h3.1, ?_⟩, hg⟩⟩, hr⟩
      · intro p hp
        simp only [List.mem_cons, List.not_mem_nil, or_false] at hp
        rcases hp with rfl | rfl
        · exact .inr ⟨deString_plays h3.1, g, hg⟩
        · exact .inl ⟨deString_plays h5.1, n, deString_plays h5.2⟩
      · intro p hp
        rw [List.mem_singleton] at hp
        subst hp
        rw [deString_plays h5.1]
        exact fun h => name_ne_values (Option.some.inj h)

/-- `{"values":{"x":7},"name":"Foo"}` in a format. -/
def exVar : Der := exDer (.map true [(exDer (.str "values".toList), exDer (.map true [(exDer (.str "x".toList), exDer (.num ⟨.u64, 7, by decide, by decide⟩))])),
  (exDer (.str "name".toList), exDer (.str "Foo".toList))])

example : deVariant exVar = some (.mk "Foo".toList (.named [("x".toList, exU 7)])) := rfl
/-- Unknown and missing keys are errors; of repeated keys the last counts. -/
example : deVariant (exDer (.map true [(exDer (.str "name".toList), exDer (.str "Foo".toList))])) = none := rfl
example : deVariant (exDer (.map true [(exDer (.str "name".toList), exDer (.str "Foo".toList)), (exDer (.str "values".toList), exDer (.seq true [])), (exDer (.str "z".toList), exDer .unit)])) = none := rfl
example : deVariant (exDer (.map true [(exDer (.str "name".toList), exDer (.str "Foo".toList)), (exDer (.str "values".toList), exDer (.seq true [])), (exDer (.str "name".toList), exDer (.str "Bar".toList))])) =
    some (.mk "Bar".toList (.unnamed [])) := rfl

/-! ### C48 -/

/-- C48: for all types built from the types of `Returns`, `to_value` succeeds, and `from_value` gives the data back. -/
theorem C48_round_trip (t : Ty) (ht : Returns t) (d : Dat) (s : Ser) (h : t.ser d = some s) : ∃ v, s.toValue = .ok v ∧ t.de v.der = some d := returns_comes ht d s h

/-- `enum E { A, B(u8, Option<char>), C { x: Vec<i64> } }` -/
def exEnum : Ty := .enum [("A".toList, .unit), ("B".toList, .tuple [.num .u8, .option .char]), ("C".toList, .struct [("x".toList, .seq (.num .i64))])]
/-- `struct S { e: E, m: BTreeMap<char, ()> }` -/
def exStruct : Ty := .struct [("e".toList, exEnum), ("m".toList, .map true .unit)]

theorem exStruct_returns : Returns exStruct := by
  refine .struct (by decide) ?_
  simp only [List.forall_mem_cons]
  refine ⟨.enum ?_ ?_ ?_ ?_, .map .unit, by simp⟩
  · simp
  · simp only [List.forall_mem_cons]
    refine ⟨by simp, ?_, by simp, by simp⟩
    rintro ts ⟨⟩
    simp only [List.forall_mem_cons]
    exact ⟨.num _, .option .char, by simp⟩
  · simp only [List.forall_mem_cons]
    refine ⟨by simp, by simp, ?_, by simp⟩
    rintro ts ⟨⟩
    decide
  · simp only [List.forall_mem_cons]
    refine ⟨by simp, by simp, ?_, by simp⟩
    rintro ts ⟨⟩
    simp only [List.forall_mem_cons]
    exact ⟨.seq (.num _), by simp⟩

/-- `S { e: B(9, Some('q')), m: { 'k': () } }` -/
def exDat : Dat := .list [.enum "B".toList [.num ⟨.u8, 9, by decide, by decide⟩, .some (.char 'q')], .map [("k".toList, .unit)]]

example : ∃ s v, exStruct.ser exDat = some s ∧ s.toValue = .ok v ∧ exStruct.de v.der = some exDat := by
  obtain ⟨s, hs⟩ : ∃ s, exStruct.ser exDat = some s := ⟨_, rfl⟩
  obtain ⟨v, h1, h2⟩ := C48_round_trip _ exStruct_returns exDat s hs
  exact ⟨s, v, hs, h1, h2⟩

/-- C48: the exceptions are real. `struct Foo(T)` for a scalar `T` never comes back: -/
theorem C48_newtype_scalars (t : Ty) (ht : t = .bool ∨ (∃ n, t = .num n) ∨ t = .char ∨ t = .string) (d : Dat) (s : Ser) (v : Value Unit)
    (h : (Ty.newtype t).ser d = some s) (hv : s.toValue = .ok v) : (Ty.newtype t).de v.der = none := by
  have : ∃ x, v = .mk (.composite (.unnamed [x])) () := by
    rcases d with _ | _ | _ | _ | _ | _ | _ | _ | ds | _ | _ | _ <;> first | (cases h; done) | skip
    match ds with
    | [] => cases h
    | _ :: _ :: _ => cases h
    | [d] =>
      rw [Ty.ser] at h
      obtain ⟨s', -, rfl⟩ := map_some h
      rw [Ser.toValue] at hv
      obtain ⟨x, -, h2⟩ := bind_ok.1 hv
      cases h2
      exact ⟨x, rfl⟩
  obtain ⟨x, rfl⟩ := this
  rw [newtype_composite]
  rcases ht with rfl | ⟨n, rfl⟩ | rfl | rfl <;> rfl

/-- C48: neither does `enum E { A(T) }`. -/
theorem C48_newtype_variants (name : Str) (t : Ty) (ht : t = .bool ∨ (∃ n, t = .num n) ∨ t = .char ∨ t = .string) (d : Dat) (s : Ser) (v : Value Unit)
    (h : (Ty.enum [(name, .newtype t)]).ser d = some s) (hv : s.toValue = .ok v) : (Ty.enum [(name, .newtype t)]).de v.der = none := by
  have : ∃ x, v = .mk (.variant (.mk name (.unnamed [x]))) () := by
    rcases d with _ | _ | _ | _ | _ | _ | _ | _ | _ | ⟨nm, ds⟩ | _ | _ <;> first | (cases h; done) | skip
    rw [Ty.ser, Ty.serVariant] at h
    split at h
    · match ds with
      | [] => cases h
      | _ :: _ :: _ => cases h
      | [d] =>
        rw [VTy.ser] at h
        obtain ⟨s', -, rfl⟩ := map_some h
        rw [Ser.toValue] at hv
        obtain ⟨x, -, h2⟩ := bind_ok.1 hv
        cases h2
        exact ⟨x, rfl⟩
    · cases h
  obtain ⟨x, rfl⟩ := this
  rw [de_enum, Ty.deVariant, if_pos rfl]
  rcases ht with rfl | ⟨n, rfl⟩ | rfl | rfl <;> rfl

/-- There is data for both. -/
example : (Ty.newtype .bool).ser (.list [.bool true]) = some (.newtypeStruct (.bool true)) := rfl
example : (Ty.enum [("A".toList, .newtype .bool)]).ser (.enum "A".toList [.bool true]) = some (.newtypeVariant "A".toList (.bool true)) := rfl
/-- `enum E { A(Vec<Value>) }` comes back as something else: the vector is wrapped in one more. -/
example : ∃ v, (Ser.newtypeVariant "A".toList (.seq [.bool true])).toValue = .ok v ∧
    (Ty.enum [("A".toList, .newtype (.seq .value))]).de v.der = some (.enum "A".toList [.list [.value (.unnamedComposite [.bool true])]]) := ⟨_, rfl, rfl⟩

/-! ### C49 -/

/-- C49: a named composite is read as a struct by the names of the fields, in any order; further fields are ignored; missing fields (unless of type `Option`), repeated fields and fields that cannot be read are errors. -/
theorem C49_by_name (fs : List (Str × Ty)) (ps : List (Str × Value T)) (c : T) (d : Dat) :
    (Ty.struct fs).de (Value.mk (.composite (.named ps)) c).der = some d ↔ ∃ ds, d = .list ds ∧ fs.length = ds.length ∧
      ∀ (i : Nat) (f : Str × Ty) (x : Dat), fs[i]? = some f → ds[i]? = some x → FieldIs ps f.1 f.2 x := by
  have h : (Ty.struct fs).de (Value.mk (.composite (.named ps)) c).der = (Ty.deFields fs (ps.map (fun p => (p.1, p.2.der)))).map .list := by
    simp only [Ty.de, Der.visit, Value.der, Der.ask, ValueDef.ask, Composite.ask, structOf_fields]
  rw [h, Option.map_eq_some_iff]
  refine exists_congr fun ds => ?_
  rw [deFields_iff, ← pointwise_forall₂]
  constructor
  · rintro ⟨h1, rfl⟩; exact ⟨rfl, h1⟩
  · rintro ⟨rfl, h1⟩; exact ⟨h1, rfl⟩

/-- C49: so the order of the fields of the value is irrelevant. -/
theorem C49_order (fs : List (Str × Ty)) (ps qs : List (Str × Value T)) (hp : ps.Perm qs) (c c' : T) :
    (Ty.struct fs).de (Value.mk (.composite (.named ps)) c).der = (Ty.struct fs).de (Value.mk (.composite (.named qs)) c').der := by
  have field : ∀ (ps qs : List (Str × Value T)) (_ : ps.Perm qs) (n : Str) (t : Ty) (x : Dat), FieldIs ps n t x → FieldIs qs n t x := by
    intro ps qs hp n t x h
    cases h with
    | @present _ _ v pre post split once h =>
      subst split
      have hm : (n, v) ∈ qs := hp.subset (by simp)
      obtain ⟨a, b, rfl⟩ := List.append_of_mem hm
      refine .present rfl ?_ h
      have hp1 : ((n, v) :: (pre ++ post)).Perm ((n, v) :: (a ++ b)) := (List.perm_middle.symm.trans hp).trans List.perm_middle
      have hp2 := (List.Perm.cons_inv hp1).map (fun p => p.1)
      exact fun h => once (hp2.symm.subset h)
    | absent h => exact .absent fun hm => h ((hp.map (fun p => p.1)).symm.subset hm)
  have key : ∀ (ps qs : List (Str × Value T)) (_ : ps.Perm qs) (c c' : T) (d : Dat),
      (Ty.struct fs).de (Value.mk (.composite (.named ps)) c).der = some d → (Ty.struct fs).de (Value.mk (.composite (.named qs)) c').der = some d := by
    intro ps qs hp c c' d h
    rw [C49_by_name] at h ⊢
    obtain ⟨ds, h1, h2, h3⟩ := h
    exact ⟨ds, h1, h2, fun i f x hf hx => field ps qs hp _ _ _ (h3 i f x hf hx)⟩
  cases h : (Ty.struct fs).de (Value.mk (.composite (.named ps)) c).der with
  | some d => exact (key ps qs hp c c' d h).symm
  | none =>
    cases h' : (Ty.struct fs).de (Value.mk (.composite (.named qs)) c').der with
    | none => rfl
    | some d => rw [key qs ps hp.symm c' c d h'] at h; cases h

/-- C49: an unnamed composite is read as a struct in the order of the fields; values that are left over are ignored, and too few values are an error. -/
theorem C49_in_order (fs : List (Str × Ty)) (vs : List (Value T)) (c : T) (d : Dat) :
    (Ty.struct fs).de (Value.mk (.composite (.unnamed vs)) c).der = some d ↔ ∃ ds, d = .list ds ∧ fs.length = ds.length ∧ fs.length ≤ vs.length ∧
      ∀ (i : Nat) (f : Str × Ty) (v : Value T) (x : Dat), fs[i]? = some f → vs[i]? = some v → ds[i]? = some x → f.2.de v.der = some x := by
  have h : (Ty.struct fs).de (Value.mk (.composite (.unnamed vs)) c).der = (Ty.deList (fs.map (fun f => f.2)) false (vs.map Value.der)).map .list := by
    simp only [Ty.de, Der.visit, Value.der, Der.ask, ValueDef.ask, Composite.ask, structOf, deFieldList_eq, valDers_eq]
  rw [h, Option.map_eq_some_iff]
  refine exists_congr fun ds => ?_
  have key : ∀ (fs : List (Str × Ty)) (vs : List (Value T)) (ds : List Dat), Ty.deList (fs.map (fun f => f.2)) false (vs.map Value.der) = some ds ↔
      fs.length = ds.length ∧ fs.length ≤ vs.length ∧
      ∀ (i : Nat) (f : Str × Ty) (v : Value T) (x : Dat), fs[i]? = some f → vs[i]? = some v → ds[i]? = some x → f.2.de v.der = some x := by
    intro fs
    induction fs with
    | nil => intro vs ds; cases ds <;> simp [Ty.deList]
    | cons f fs ih =>
      intro vs ds
      cases vs with
      | nil => simp [Ty.deList]
      | cons v vs =>
        rw [List.map_cons, List.map_cons, Ty.deList]
        constructor
        · intro h
          split at h
          · cases h
          · next x hx =>
            split at h
            · cases h
            · next xs hxs =>
              cases h
              obtain ⟨h1, h2, h3⟩ := (ih vs xs).1 hxs
              refine ⟨by simp [h1], by simpa using h2, fun i => ?_⟩
              cases i with
              | zero => intro f v x a b c; cases a; cases b; cases c; exact hx
              | succ i => exact h3 i
        · rintro ⟨h1, h2, h3⟩
          cases ds with
          | nil => simp at h1
          | cons x xs =>
            rw [h3 0 f v x rfl rfl rfl]
            simp only
            rw [(ih vs xs).2 ⟨by simpa using h1, by simpa using h2, fun i => h3 (i + 1)⟩]
  rw [key]
  constructor
  · rintro ⟨h1, rfl⟩; exact ⟨rfl, h1⟩
  · rintro ⟨rfl, h1⟩; exact ⟨h1, rfl⟩

/-- C49: variants and primitives are not read as structs. -/
theorem C49_others (fs : List (Str × Ty)) (v : Value T) (h : (∃ x c, v = .mk (.variant x) c) ∨ (∃ p c, v = .mk (.primitive p) c)) : (Ty.struct fs).de v.der = none := by
  rcases h with ⟨⟨n, f⟩, c, rfl⟩ | ⟨p, c, rfl⟩
  · simp only [Ty.de, Der.visit, Value.der, Der.ask, ValueDef.ask, Variant.ask, structOf]; rfl
  · cases p <;> rfl

theorem deIdent_strDer (n : Str) : deIdent (strDer n) = some n := by simp [deIdent, strDer, Der.visit, Der.ask]

theorem deIgnored_bools (b : List Bool) : deIgnored (boolsDer b) = true := by
  simp only [boolsDer, deIgnored, deIgnoredR, ignoredL_iff]
  intro d hd
  obtain ⟨x, _, rfl⟩ := List.mem_map.1 hd
  rfl

theorem de_bools (b : List Bool) : (Ty.seq .bool).de (boolsDer b) = some (.list (b.map .bool)) := by
  have : ∀ b : List Bool, allOf Ty.bool.de (b.map boolDer) = some (b.map .bool) := by
    intro b
    induction b with
    | nil => rfl
    | cons x b ih => simp only [List.map_cons, allOf, ih]; rfl
  rw [Ty.de]
  simp only [boolsDer, Der.visit, Der.ask]
  rw [this]; rfl

theorem deList_bools (n : Nat) : ∀ (b : List Bool) (ds : List Dat), Ty.deList (List.replicate n .bool) true (b.map boolDer) = some ds ↔ b.length = n ∧ ds = b.map .bool := by
  induction n with
  | zero =>
    intro b ds
    cases b with
    | nil =>
      simp only [List.replicate_zero, List.map_nil, Ty.deList]
      constructor
      · intro h; cases h; exact ⟨rfl, rfl⟩
      · rintro ⟨-, rfl⟩; rfl
    | cons x b =>
      simp only [List.replicate_zero, List.map_cons, Ty.deList]
      constructor
      · intro h; cases h
      · rintro ⟨h, -⟩; cases h
  | succ n ih =>
    intro b ds
    cases b with
    | nil => simp [List.replicate_succ, Ty.deList]
    | cons x b =>
      have hx : Ty.bool.de (boolDer x) = some (.bool x) := rfl
      simp only [List.replicate_succ, List.map_cons, Ty.deList, hx]
      cases h : Ty.deList (List.replicate n .bool) true (b.map boolDer) with
      | none =>
        simp only [List.length_cons, Nat.add_right_cancel_iff]
        constructor
        · intro h; cases h
        · rintro ⟨h1, -⟩
          rw [(ih b _).2 ⟨h1, rfl⟩] at h; cases h
      | some xs =>
        obtain ⟨h1, rfl⟩ := (ih b xs).1 h
        simp [h1, eq_comm]

/-- C49: the bits are read as a fixed number of booleans precisely if there are as many. -/
theorem C49_bits_tuple (n : Nat) (b : List Bool) (c : T) (d : Dat) :
    (Ty.struct [("__bitvec__values__".toList, .tuple (List.replicate n .bool))]).de (Value.mk (.bitSequence b) c).der = some d ↔ b.length = n ∧ d = .list [.list (b.map .bool)] := by
  have h : (Ty.struct [(bitIdent, .tuple (List.replicate n .bool))]).de (Value.mk (.bitSequence b) c).der =
      (Ty.deList (List.replicate n .bool) true (b.map boolDer)).map (fun ds => .list [.list ds]) := by
    have hp : pickField bitIdent [(bitIdent, boolsDer b)] = some (some (boolsDer b)) := by simp [pickField]
    simp only [Ty.de, Der.visit, Value.der, Der.ask, ValueDef.ask, bitsReply, structOf, identKeys, deIdent_strDer]
    rw [if_pos (by simp)]
    rw [Ty.deFields, hp]
    simp only [Ty.deFields, Ty.de, boolsDer, Der.visit, Der.ask]
    cases Ty.deList (List.replicate n .bool) true (b.map boolDer) <;> rfl
  rw [show "__bitvec__values__".toList = bitIdent from rfl, h, Option.map_eq_some_iff]
  constructor
  · rintro ⟨ds, h1, rfl⟩
    obtain ⟨h2, rfl⟩ := (deList_bools n b ds).1 h1
    exact ⟨h2, rfl⟩
  · rintro ⟨h1, rfl⟩
    exact ⟨_, (deList_bools n b _).2 ⟨h1, rfl⟩, rfl⟩

/-- C49: a bit sequence is read as a struct as if it were a named composite with one field, `__bitvec__values__`, that holds its bits. -/
theorem C49_bits (fs : List (Str × Ty)) (b : List Bool) (c : T) (hb : ∀ f ∈ fs, f.1 = "__bitvec__values__".toList → f.2 = .seq .bool) (d : Dat) :
    (Ty.struct fs).de (Value.mk (.bitSequence b) c).der = some d ↔ ∃ ds, d = .list ds ∧ fs.length = ds.length ∧
      ∀ (i : Nat) (f : Str × Ty) (x : Dat), fs[i]? = some f → ds[i]? = some x →
        (f.1 = "__bitvec__values__".toList ∧ x = .list (b.map .bool)) ∨ (f.1 ≠ "__bitvec__values__".toList ∧ (∃ u, f.2 = .option u) ∧ x = .none) := by
  have h : (Ty.struct fs).de (Value.mk (.bitSequence b) c).der = (Ty.deFields fs [(bitIdent, boolsDer b)]).map .list := by
    simp only [Ty.de, Der.visit, Value.der, Der.ask, ValueDef.ask, bitsReply, structOf, identKeys, deIdent_strDer]
    rw [if_pos]
    simp [deIgnored_bools]
  rw [h, Option.map_eq_some_iff]
  refine exists_congr fun ds => ?_
  have key : ∀ (fs : List (Str × Ty)) (ds : List Dat), (∀ f ∈ fs, f.1 = "__bitvec__values__".toList → f.2 = .seq .bool) →
      (Ty.deFields fs [(bitIdent, boolsDer b)] = some ds ↔ fs.length = ds.length ∧
      ∀ (i : Nat) (f : Str × Ty) (x : Dat), fs[i]? = some f → ds[i]? = some x →
        (f.1 = "__bitvec__values__".toList ∧ x = .list (b.map .bool)) ∨ (f.1 ≠ "__bitvec__values__".toList ∧ (∃ u, f.2 = .option u) ∧ x = .none)) := by
    intro fs
    induction fs with
    | nil => intro ds _; cases ds <;> simp [Ty.deFields]
    | cons f fs ih =>
      intro ds hb
      obtain ⟨n, t⟩ := f
      have ih := fun ds => ih ds (fun f hf => hb f (List.mem_cons_of_mem _ hf))
      have head : ∃ o : Option Dat, Ty.deFields ((n, t) :: fs) [(bitIdent, boolsDer b)] = o.bind (fun x => (Ty.deFields fs [(bitIdent, boolsDer b)]).map (fun xs => x :: xs)) ∧
          ∀ x, o = some x ↔
          (n = "__bitvec__values__".toList ∧ x = .list (b.map .bool)) ∨ (n ≠ "__bitvec__values__".toList ∧ (∃ u, t = .option u) ∧ x = .none) := by
        rw [Ty.deFields]
        by_cases hn : n = bitIdent
        · subst hn
          have ht : t = .seq .bool := hb _ List.mem_cons_self rfl
          subst ht
          refine ⟨some (.list (b.map .bool)), ?_, ?_⟩
          · have hp : pickField bitIdent [(bitIdent, boolsDer b)] = some (some (boolsDer b)) := by simp [pickField]
            rw [hp]
            simp only
            rw [de_bools, Option.bind_some]
            cases Ty.deFields fs [(bitIdent, boolsDer b)] <;> rfl
          · intro x
            constructor
            · intro h; cases h; exact .inl ⟨rfl, rfl⟩
            · rintro (⟨_, rfl⟩ | ⟨h, _⟩)
              · rfl
              · exact absurd rfl h
        · refine ⟨t.missing, ?_, ?_⟩
          · have hp : pickField n [(bitIdent, boolsDer b)] = some none := by simp [pickField, List.filter, show decide (bitIdent = n) = false by simpa using fun h => hn h.symm]
            rw [hp]
            simp only
            cases t.missing <;> cases Ty.deFields fs [(bitIdent, boolsDer b)] <;> rfl
          · intro x
            have hn' : ¬ n = ['_', '_', 'b', 'i', 't', 'v', 'e', 'c', '_', '_', 'v', 'a', 'l', 'u', 'e', 's', '_', '_'] := hn
            cases t <;> simp [Ty.missing, hn', eq_comm]
      obtain ⟨o, ho, hx⟩ := head
      rw [ho]
      constructor
      · intro h
        obtain ⟨x, hox, h⟩ := Option.bind_eq_some_iff.1 h
        obtain ⟨xs, hxs, rfl⟩ := Option.map_eq_some_iff.1 h
        obtain ⟨h1, h3⟩ := (ih xs).1 hxs
        refine ⟨by simp [h1], fun i => ?_⟩
        cases i with
        | zero => intro f y a b; cases a; cases b; exact (hx x).1 hox
        | succ i => exact h3 i
      · rintro ⟨h1, h3⟩
        cases ds with
        | nil => simp at h1
        | cons x xs =>
          rw [(hx x).2 (h3 0 _ x rfl rfl)]
          simp only [Option.bind_some]
          rw [(ih xs).2 ⟨by simpa using h1, fun i => h3 (i + 1)⟩]
          rfl
  rw [key fs ds hb]
  constructor
  · rintro ⟨h1, rfl⟩; exact ⟨rfl, h1⟩
  · rintro ⟨rfl, h1⟩; exact ⟨h1, rfl⟩

example : (Ty.struct [("x".toList, .option .bool), ("__bitvec__values__".toList, .seq .bool)]).de (Value.bitSequence [true, false]).der =
    some (.list [.none, .list [.bool true, .bool false]]) := rfl
example : (Ty.struct [("a".toList, .num .u8), ("b".toList, .option .bool)]).de (Value.namedComposite [("z".toList, exU 4), ("a".toList, exU 3)]).der =
    some (.list [.num ⟨.u8, 3, by decide, by decide⟩, .none]) := rfl
example : (Ty.struct [("a".toList, .num .u8)]).de (Value.namedComposite [("a".toList, exU 4), ("a".toList, exU 3)]).der = none := rfl

/-! ### C50 -/

/-- C50: `struct S(T)` is read from a composite or a primitive as `T` is (and not as it is written by `to_value`, see C48). -/
theorem C50_newtype (t : Ty) (v : Value T) (h : (∃ f c, v = .mk (.composite f) c) ∨ (∃ p c, v = .mk (.primitive p) c)) :
    (Ty.newtype t).de v.der = (t.de v.der).map (fun x => .list [x]) := by
  rcases h with ⟨f, c, rfl⟩ | ⟨p, c, rfl⟩
  · exact newtype_composite t f c
  · exact newtype_primitive t p c

/-- C50: also from a variant, unless `T` is an `Option` or a struct. -/
theorem C50_variant (t : Ty) (n : Str) (f : Composite T) (c : T) (h1 : ∀ u, t ≠ .option u) (h2 : ∀ fs, t ≠ .struct fs) :
    (Ty.newtype t).de (Value.mk (.variant (.mk n f)) c).der = (t.de (Value.mk (.variant (.mk n f)) c).der).map (fun x => .list [x]) := newtype_variant t n f c h1 h2

/-- C50: the exceptions are real. `struct S(Option<T>)` is never read, .. -/
theorem C50_option (t : Ty) (v : Value T) : (Ty.newtype (.option t)).de v.der = none := by
  cases v with | mk d c =>
  cases d with
  | composite f => rw [newtype_composite]; cases f <;> rfl
  | primitive p => rw [newtype_primitive]; cases p <;> rfl
  | variant v => cases v; exact newtype_option_variant t _ _ c
  | bitSequence b => exact newtype_bits _ b c

/-- C50: .. and no newtype is read from a bit sequence. -/
theorem C50_bits (t : Ty) (b : List Bool) (c : T) : (Ty.newtype t).de (Value.mk (.bitSequence b) c).der = none := newtype_bits t b c

/-- C50: `struct S(T)` for a struct `T` is read from a variant as `T` is from a composite with the fields of the variant (while `T` itself is not read from variants, C49). -/
theorem C50_variant_struct (fs : List (Str × Ty)) (n : Str) (f : Composite T) (c : T) :
    (Ty.newtype (.struct fs)).de (Value.mk (.variant (.mk n f)) c).der = ((Ty.struct fs).de (Value.mk (.composite f) c).der).map (fun x => .list [x]) := by
  have : (Value.mk (.variant (.mk n f)) c).der.visit .newtypeStruct = .seq false [.mk (Variant.mk n f).ask] := by simp [Value.der, Der.visit, Der.ask, ValueDef.ask]
  rw [Ty.de, this]
  simp only [Bool.false_eq_true, false_and, if_false]
  congr 1
  simp only [Ty.de]
  congr 2
  cases f <;> simp [Value.der, Der.visit, Der.ask, ValueDef.ask, Variant.ask, Composite.ask]

example : (Ty.newtype (.seq (.num .u8))).de (Value.unnamedComposite [exU 1, exU 2]).der =
    some (.list [.list [.num ⟨.u8, 1, by decide, by decide⟩, .num ⟨.u8, 2, by decide, by decide⟩]]) := rfl
example : (Ty.newtype (.struct [("a".toList, .num .u8)])).de (Value.variant "V".toList (.named [("a".toList, exU 1)])).der = some (.list [.list [.num ⟨.u8, 1, by decide, by decide⟩]]) := rfl
example : (Ty.struct [("a".toList, .num .u8)]).de (Value.variant "V".toList (.named [("a".toList, exU 1)])).der = none := rfl

end SV
