import Verif.Proofs.DeFault
import Verif.Proofs.ErrorShow
import Verif.Proofs.Codec
import Verif.Props.SerdeRead
/-
C73: the errors of `from_value`.
-/
namespace SV

variable {T : Type}

/-- The value is a primitive that is none of the given kinds, or is not a primitive at all: the rule behind most theorems below. -/
theorem wrong_any {v : Value T} {h : Hint} {x : Expect} {e : DeErr} (hv : ∀ r, v.der.visit h ≠ .error r) (hs : (v.der.visit h).unexp = (v.der.visit .any).unexp) :
    (v.der.visit h).wrong x = e ↔ ∃ u, ShownAs v u ∧ e = .invalidType u x := by
  have : (v.der.visit h).wrong x = .invalidType (v.der.visit h).unexp x := by
    generalize v.der.visit h = r at hv
    cases r <;> first | rfl | exact absurd rfl (hv _)
  rw [this, hs]
  simp only [shownAs_iff, exists_eq_left, @eq_comm _ e]

/-- C73: reading with errors is reading (C41-C52): it succeeds with the same data. -/
theorem C73_agree (t : Ty) (ht : t.Proper) (d : Der) : (∀ x, t.deE d = .ok x ↔ t.de d = some x) ∧ ((∃ e, t.deE d = .error e) ↔ t.de d = none) := by
  rw [← Ty.deE_agree t ht d]
  exact ⟨fun x => toOption_ok.symm, toOption_none.symm⟩

/-- C73: so is reading the types of the crate. -/
theorem C73_agree_own (d : Der) : (deValueE d).toOption = deValue d ∧ (deCompositeE d).toOption = deComposite d ∧ (deVariantE d).toOption = deVariant d ∧
    (dePrimitiveE d).toOption = dePrimitive d := ⟨deValueE_agree d, deCompositeE_agree d, deVariantE_agree d, dePrimitiveE_agree d⟩

/-- C73: when a value refuses by itself, and with which error. -/
theorem C73_refuses (v : Value T) (h : Hint) (e : Refusal) : v.der.visit h = .error e ↔ Refuses v h e := refuses_iff v h e

/-- C73: the messages of these errors. -/
theorem C73_messages (name : Str) (got want : Nat) :
    Refusal.bitsNewtype.display name = "Cannot deserialize BitSequence into a newtype struct".toList ∧
    Refusal.bitsTuple.display name = "Cannot deserialize BitSequence into a tuple".toList ∧
    Refusal.bitsTupleStruct.display name = "Cannot deserialize BitSequence into a tuple struct".toList ∧
    Refusal.bitsUnit.display name = "Cannot deserialize BitSequence into a ()".toList ∧
    Refusal.bitsUnitStruct.display name = "Cannot deserialize BitSequence into the unit struct ".toList ++ name ∧
    Refusal.bitsEnum.display name = "Cannot deserialize BitSequence into the enum ".toList ++ name ∧
    Refusal.bitsBytes.display name = "Cannot deserialize BitSequence into raw bytes".toList ∧
    Refusal.bitsSeq.display name = "Cannot deserialize BitSequence into a sequence".toList ∧
    Refusal.bitsMap.display name = "Cannot deserialize BitSequence into a map".toList ∧
    (Refusal.tupleLength got want).display name =
      "Cannot deserialize composite of length ".toList ++ showNat got ++ " into tuple of length ".toList ++ showNat want ∧
    Refusal.nonEmptyUnit.display name = "Cannot deserialize non-empty Composite into a unit value".toList ∧
    Refusal.byteRange.display name = "Cannot deserialize composite that is not entirely U8's into bytes (number out of range)".toList ∧
    Refusal.byteNonNumeric.display name = "Cannot deserialize composite that is not entirely U8's into bytes (non-numeric values encountered)".toList :=
  ⟨rfl, rfl, rfl, rfl, rfl, rfl, rfl, rfl, rfl, rfl, rfl, rfl, rfl⟩

/-! ### Leaves -/

/-- C73: `bool`. -/
theorem C73_bool (v : Value T) (e : DeErr) : Ty.bool.deE v.der = .error e ↔ (∀ b, v.value ≠ .primitive (.bool b)) ∧ ∃ u, ShownAs v u ∧ e = .invalidType u .bool := by
  simp only [shownAs_iff, exists_eq_left]
  rw [Ty.deE, mapE_error]
  cases v with | mk d c =>
  cases d with
  | composite f => cases f <;> simp [Value.der, deBoolE, Der.visit, Der.ask, ValueDef.ask, Composite.ask, Value.value, Reply.wrong, Reply.unexp, @eq_comm _ e]
  | variant v => cases v; simp [Value.der, deBoolE, Der.visit, Der.ask, ValueDef.ask, Variant.ask, Value.value, Reply.wrong, Reply.unexp, @eq_comm _ e]
  | bitSequence b => simp [Value.der, deBoolE, Der.visit, Der.ask, ValueDef.ask, bitsReply, Value.value, Reply.wrong, Reply.unexp, @eq_comm _ e]
  | primitive p => cases p <;> simp [Value.der, deBoolE, Der.visit, Der.ask, ValueDef.ask, Primitive.ask, Primitive.any, Value.value, Reply.wrong, Reply.unexp, @eq_comm _ e]

/-- C73: `char`: a string that is not one character is an invalid value, all else is of an invalid type. -/
theorem C73_char (v : Value T) (e : DeErr) : Ty.char.deE v.der = .error e ↔
    (∃ s, v.value = .primitive (.string s) ∧ s.length ≠ 1 ∧ e = .invalidValue (.str s) .char) ∨
    ((∀ s, v.value ≠ .primitive (.string s)) ∧ (∀ c, v.value ≠ .primitive (.char c)) ∧ ∃ u, ShownAs v u ∧ e = .invalidType u .char) := by
  simp only [shownAs_iff, exists_eq_left]
  rw [Ty.deE, mapE_error]
  cases v with | mk d c =>
  cases d with
  | composite f => cases f <;> simp [Value.der, deCharE, Der.visit, Der.ask, ValueDef.ask, Composite.ask, Value.value, Reply.wrong, Reply.unexp, @eq_comm _ e]
  | variant v => cases v; simp [Value.der, deCharE, Der.visit, Der.ask, ValueDef.ask, Variant.ask, Value.value, Reply.wrong, Reply.unexp, @eq_comm _ e]
  | bitSequence b => simp [Value.der, deCharE, Der.visit, Der.ask, ValueDef.ask, bitsReply, Value.value, Reply.wrong, Reply.unexp, @eq_comm _ e]
  | primitive p =>
    cases p with
    | string s =>
      rcases s with _ | ⟨a, _ | ⟨b, s⟩⟩ <;>
        simp [Value.der, deCharE, Der.visit, Der.ask, ValueDef.ask, Primitive.ask, Primitive.any, Value.value, Reply.wrong, Reply.unexp, @eq_comm _ e]
    | _ => simp [Value.der, deCharE, Der.visit, Der.ask, ValueDef.ask, Primitive.ask, Primitive.any, Value.value, Reply.wrong, Reply.unexp, @eq_comm _ e]

/-- C73: `String`: a 256 bit number whose bytes are not UTF-8 is an invalid value; all else that is not a string or a character is of an invalid type. -/
theorem C73_string (v : Value T) (e : DeErr) : Ty.string.deE v.der = .error e ↔
    (∃ b : Bytes32, (v.value = .primitive (.u256 b) ∨ v.value = .primitive (.i256 b)) ∧ (∀ s, b.bytes ≠ utf8Bytes s) ∧ e = .invalidValue (.bytes b.bytes) .string) ∨
    ((∀ s, v.value ≠ .primitive (.string s)) ∧ (∀ c, v.value ≠ .primitive (.char c)) ∧ (∀ b, v.value ≠ .primitive (.u256 b)) ∧ (∀ b, v.value ≠ .primitive (.i256 b)) ∧
      ∃ u, ShownAs v u ∧ e = .invalidType u .string) := by
  have utf : ∀ bs : List UInt8, fromUtf8 bs = none ↔ ∀ s, bs ≠ utf8Bytes s := by
    intro bs
    constructor
    · intro h s hs
      rw [fromUtf8_iff.2 hs] at h
      cases h
    · intro h
      cases hb : fromUtf8 bs with
      | none => rfl
      | some s => exact absurd (fromUtf8_iff.1 hb) (h s)
  have key : ∀ bs : List UInt8, (match fromUtf8 bs with | some s => Except.ok s | none => Except.error (DeErr.invalidValue (.bytes bs) .string)) = .error e ↔
      (∀ s, bs ≠ utf8Bytes s) ∧ e = .invalidValue (.bytes bs) .string := by
    intro bs
    rw [← utf]
    cases fromUtf8 bs <;> simp [@eq_comm _ e]
  simp only [shownAs_iff, exists_eq_left]
  rw [Ty.deE, mapE_error]
  cases v with | mk d c =>
  cases d with
  | composite f => cases f <;> simp [Value.der, deStringE, Der.visit, Der.ask, ValueDef.ask, Composite.ask, Value.value, Reply.wrong, Reply.unexp, @eq_comm _ e]
  | variant v => cases v; simp [Value.der, deStringE, Der.visit, Der.ask, ValueDef.ask, Variant.ask, Value.value, Reply.wrong, Reply.unexp, @eq_comm _ e]
  | bitSequence b => simp [Value.der, deStringE, Der.visit, Der.ask, ValueDef.ask, bitsReply, Value.value, Reply.wrong, Reply.unexp, @eq_comm _ e]
  | primitive p =>
    cases p with
    | u256 b =>
      refine (key b.bytes).trans ?_
      simp [Value.value]
    | i256 b =>
      refine (key b.bytes).trans ?_
      simp [Value.value]
    | _ => simp [Value.der, deStringE, Der.visit, Der.ask, ValueDef.ask, Primitive.ask, Primitive.any, Value.value, Reply.wrong, Reply.unexp, @eq_comm _ e]

/-- C73: the integer types: a number that does not fit is an invalid value for `u128` and `i128`, and of an invalid type for the others (the message says that it is a 128 bit integer);
so is what is not a number. -/
theorem C73_num (t : NumTy) (v : Value T) (e : DeErr) : (Ty.num t).deE v.der = .error e ↔
    (∀ n, v.number? = some n → ¬ t.Holds n) ∧ ∃ u, ShownAs v u ∧
      e = if v.number? ≠ none ∧ (t = .u128 ∨ t = .i128) then .invalidValue u (.num t) else .invalidType u (.num t) := by
  have hof : ∀ n : Int, Num.ofInt? t n = none ↔ ¬ t.Holds n := by
    intro n
    rw [holds_iff]
    unfold Num.ofInt?
    split <;> simp_all
  have hok : ∀ n : Int, t.Holds n → ∃ x, Num.ofInt? t n = some x ∧ x.ty = t := by
    intro n h
    obtain ⟨h1, h2⟩ := (holds_iff _ _).1 h
    exact ⟨⟨t, n, h1, h2⟩, by unfold Num.ofInt?; rw [dif_pos ⟨h1, h2⟩], rfl⟩
  simp only [shownAs_iff, exists_eq_left]
  rw [Ty.deE, mapE_error]
  -- a number in `m`, asked for `t`
  have number : ∀ (p : Primitive) (m : Num) (c : T), p.any = .num m → (m.ty = .u128 ∨ m.ty = .i128) →
      (p.askNum t = match Num.ofInt? t m.val with | some x => .num x | none => .num m) → (Value.mk (.primitive p) c).number? = some m.val →
      (deNumE t (Value.mk (.primitive p) c).der = .error e ↔ (∀ n, (Value.mk (.primitive p) c).number? = some n → ¬ t.Holds n) ∧
        e = if (Value.mk (.primitive p) c).number? ≠ none ∧ (t = .u128 ∨ t = .i128) then .invalidValue ((Value.mk (.primitive p) c).der.visit .any).unexp (.num t)
          else .invalidType ((Value.mk (.primitive p) c).der.visit .any).unexp (.num t)) := by
    intro p m c h1 h2 h3 h4
    have h5 : (Value.mk (.primitive p) c).der.visit (.num t) = p.askNum t := by
      simp only [Value.der, Der.visit, Der.ask, ValueDef.ask, Primitive.ask, h3]
      cases Num.ofInt? t m.val <;> rfl
    have h6 : (Value.mk (.primitive p) c).der.visit .any = .num m := by
      simp only [Value.der, Der.visit, Der.ask, ValueDef.ask, Primitive.ask, h1]
    rw [h4, h6]
    simp only [Reply.unexp, Option.some.injEq, forall_eq', ne_eq, reduceCtorEq, not_false_eq_true, true_and]
    rw [deNumE, h5, h3]
    by_cases hh : t.Holds m.val
    · obtain ⟨x, hx, hx'⟩ := hok _ hh
      rw [hx]
      simp [hx', hh]
    · rw [(hof _).2 hh]
      have hne : m.ty ≠ t := by
        intro h
        apply hh
        rw [holds_iff, ← h]
        exact ⟨m.ge, m.lt⟩
      simp only [hne, if_false, (hof _).2 hh]
      by_cases ht : t = .u128 ∨ t = .i128
      · rw [if_neg (by rintro ⟨-, a, b⟩; exact ht.elim a b), if_pos ht]
        simp [hh, @eq_comm _ e]
      · rw [if_pos ⟨h2, fun a => ht (.inl a), fun a => ht (.inr a)⟩, if_neg ht]
        simp [hh, @eq_comm _ e]
  cases v with | mk d c =>
  cases d with
  | composite f => cases f <;> simp [Value.der, deNumE, Der.visit, Der.ask, ValueDef.ask, Composite.ask, Value.number?, Reply.wrong, Reply.unexp, @eq_comm _ e]
  | variant v => cases v; simp [Value.der, deNumE, Der.visit, Der.ask, ValueDef.ask, Variant.ask, Value.number?, Reply.wrong, Reply.unexp, @eq_comm _ e]
  | bitSequence b => simp [Value.der, deNumE, Der.visit, Der.ask, ValueDef.ask, bitsReply, Value.number?, Reply.wrong, Reply.unexp, @eq_comm _ e]
  | primitive p =>
    cases p with
    | u128 n => exact number (.u128 n) _ c rfl (.inl rfl) rfl rfl
    | i128 n => exact number (.i128 n) _ c rfl (.inr rfl) rfl rfl
    | _ => simp [Value.der, deNumE, Der.visit, Der.ask, ValueDef.ask, Primitive.ask, Primitive.askNum, Primitive.any, Value.number?, Reply.wrong, Reply.unexp, @eq_comm _ e]

/-- C73: byte buffers: a composite that is not all bytes says so (`Refuses`), variants, booleans and numbers are of an invalid type. -/
theorem C73_bytes (v : Value T) (e : DeErr) : Ty.bytes.deE v.der = .error e ↔
    (∃ r, Refuses v .bytes r ∧ e = .refused r) ∨
    (((∃ b, v.value = .primitive (.bool b)) ∨ v.number? ≠ none ∨ ∃ x, v.value = .variant x) ∧ ∃ u, ShownAs v u ∧ e = .invalidType u .bytes) := by
  simp only [shownAs_iff, exists_eq_left, ← refuses_iff]
  rw [Ty.deE, mapE_error]
  cases v with | mk d c =>
  cases d with
  | composite f =>
    cases f with
    | named fs =>
      simp only [Value.der, deBytesE, Der.visit, Der.ask, ValueDef.ask, Composite.ask, Value.value, Value.number?]
      cases bytesOf (fs.map (fun p => p.2)) <;> simp [Reply.wrong, Reply.unexp, @eq_comm _ e]
    | unnamed vs =>
      simp only [Value.der, deBytesE, Der.visit, Der.ask, ValueDef.ask, Composite.ask, Value.value, Value.number?]
      cases bytesOf vs <;> simp [Reply.wrong, Reply.unexp, @eq_comm _ e]
  | variant v => cases v; simp [Value.der, deBytesE, Der.visit, Der.ask, ValueDef.ask, Variant.ask, Value.value, Value.number?, Reply.wrong, Reply.unexp, @eq_comm _ e]
  | bitSequence b => simp [Value.der, deBytesE, Der.visit, Der.ask, ValueDef.ask, Value.value, Value.number?, Reply.wrong, Reply.unexp, @eq_comm _ e]
  | primitive p => cases p <;> simp [Value.der, deBytesE, Der.visit, Der.ask, ValueDef.ask, Primitive.ask, Primitive.any, Value.value, Value.number?, Reply.wrong, Reply.unexp, @eq_comm _ e]

/-- C73: `()`: composites and variants that are not empty, and bit sequences, say so (`Refuses`), primitives are of an invalid type. -/
theorem C73_unit (v : Value T) (e : DeErr) : Ty.unit.deE v.der = .error e ↔
    (∃ r, Refuses v .unit r ∧ e = .refused r) ∨ ((∃ p, v.value = .primitive p) ∧ ∃ u, ShownAs v u ∧ e = .invalidType u .unit) := by
  simp only [shownAs_iff, exists_eq_left, ← refuses_iff]
  rw [Ty.deE]
  cases v with | mk d c =>
  cases d with
  | composite f =>
    cases f with
    | named fs => cases fs <;> simp [Value.der, Der.visit, Der.ask, ValueDef.ask, Composite.ask, Value.value, Reply.wrong, Reply.unexp, @eq_comm _ e]
    | unnamed vs => cases vs <;> simp [Value.der, Der.visit, Der.ask, ValueDef.ask, Composite.ask, Value.value, Reply.wrong, Reply.unexp, @eq_comm _ e]
  | variant v =>
    cases v with | mk n f =>
    cases f with
    | named fs => cases fs <;> simp [Value.der, Der.visit, Der.ask, ValueDef.ask, Variant.ask, Composite.ask, Value.value, Reply.wrong, Reply.unexp, @eq_comm _ e]
    | unnamed vs => cases vs <;> simp [Value.der, Der.visit, Der.ask, ValueDef.ask, Variant.ask, Composite.ask, Value.value, Reply.wrong, Reply.unexp, @eq_comm _ e]
  | bitSequence b => simp [Value.der, Der.visit, Der.ask, ValueDef.ask, Value.value, Reply.wrong, Reply.unexp, @eq_comm _ e]
  | primitive p => cases p <;> simp [Value.der, Der.visit, Der.ask, ValueDef.ask, Primitive.ask, Primitive.any, Value.value, Reply.wrong, Reply.unexp, @eq_comm _ e]

/-- C73: `struct S;`: the same, but a bit sequence refuses with a message of its own. -/
theorem C73_unit_struct (v : Value T) (e : DeErr) : Ty.unitStruct.deE v.der = .error e ↔
    (∃ r, Refuses v .unitStruct r ∧ e = .refused r) ∨ ((∃ p, v.value = .primitive p) ∧ ∃ u, ShownAs v u ∧ e = .invalidType u .unit) := by
  simp only [shownAs_iff, exists_eq_left, ← refuses_iff]
  rw [Ty.deE]
  cases v with | mk d c =>
  cases d with
  | composite f =>
    cases f with
    | named fs => cases fs <;> simp [Value.der, Der.visit, Der.ask, ValueDef.ask, Composite.ask, Value.value, Reply.wrong, Reply.unexp, @eq_comm _ e]
    | unnamed vs => cases vs <;> simp [Value.der, Der.visit, Der.ask, ValueDef.ask, Composite.ask, Value.value, Reply.wrong, Reply.unexp, @eq_comm _ e]
  | variant v =>
    cases v with | mk n f =>
    cases f with
    | named fs => cases fs <;> simp [Value.der, Der.visit, Der.ask, ValueDef.ask, Variant.ask, Composite.ask, Value.value, Reply.wrong, Reply.unexp, @eq_comm _ e]
    | unnamed vs => cases vs <;> simp [Value.der, Der.visit, Der.ask, ValueDef.ask, Variant.ask, Composite.ask, Value.value, Reply.wrong, Reply.unexp, @eq_comm _ e]
  | bitSequence b => simp [Value.der, Der.visit, Der.ask, ValueDef.ask, Value.value, Reply.wrong, Reply.unexp, @eq_comm _ e]
  | primitive p => cases p <;> simp [Value.der, Der.visit, Der.ask, ValueDef.ask, Primitive.ask, Primitive.any, Value.value, Reply.wrong, Reply.unexp, @eq_comm _ e]

/-! ### Types made of others -/

/-- C73: `Option<T>`: the error is about the contents of a `Some`, or says that the value is of an invalid type. -/
theorem C73_option (t : Ty) (v : Value T) (e : DeErr) : (Ty.option t).deE v.der = .error e ↔
    (∃ x, v.value = .variant (.mk "Some".toList (.unnamed [x])) ∧ t.deE x.der = .error e) ∨
    ((∀ x, v.value ≠ .variant (.mk "Some".toList (.unnamed [x]))) ∧ v.value ≠ .variant (.mk "None".toList (.unnamed [])) ∧ ∃ u, ShownAs v u ∧ e = .invalidType u .option) := by
  simp only [shownAs_iff, exists_eq_left]
  rw [Ty.deE]
  cases v with | mk d c =>
  cases d with
  | composite f => cases f <;> simp [Value.der, Der.visit, Der.ask, ValueDef.ask, Composite.ask, Value.value, Reply.wrong, Reply.unexp, @eq_comm _ e]
  | variant v =>
    cases v with | mk n f =>
    cases f with
    | named fs => simp [Value.der, Der.visit, Der.ask, ValueDef.ask, Variant.ask, Variant.askOption, Composite.elems?, Value.value, Reply.wrong, Reply.unexp, @eq_comm _ e]
    | unnamed vs =>
      rcases vs with _ | ⟨x, _ | ⟨y, vs⟩⟩
      · by_cases hn : n = "None".toList
        · simp [Value.der, Der.visit, Der.ask, ValueDef.ask, Variant.ask, Variant.askOption, Composite.elems?, valDers, Value.value, Reply.wrong, Reply.unexp, hn]
        · have h : (Value.mk (.variant (.mk n (.unnamed []))) c).der.visit .option = .enum (strDer n) (.mk (Composite.unnamed (T := T) []).ask) (accessOf (Composite.unnamed (T := T) []).ask) := by
            simp only [Value.der, Der.visit, Der.ask, ValueDef.ask, Variant.askOption, Composite.elems?, valDers, if_neg hn]
          rw [h]
          simp [Value.der, Der.visit, Der.ask, ValueDef.ask, Variant.ask, Value.value, Reply.wrong, Reply.unexp, @eq_comm _ e]
          exact fun _ h => hn (by simpa using h)
      · by_cases hn : n = "Some".toList
        · subst hn
          have h : (Value.mk (.variant (.mk "Some".toList (.unnamed [x]))) c).der.visit .option = .some x.der := by
            simp only [Value.der, Der.visit, Der.ask, ValueDef.ask, Variant.askOption, Composite.elems?, valDers, if_true]
          rw [h]
          simp [mapE_error, Value.value]
        · have h : (Value.mk (.variant (.mk n (.unnamed [x]))) c).der.visit .option = .enum (strDer n) (.mk (Composite.unnamed [x]).ask) (accessOf (Composite.unnamed [x]).ask) := by
            simp only [Value.der, Der.visit, Der.ask, ValueDef.ask, Variant.askOption, Composite.elems?, valDers, if_neg hn]
          rw [h]
          have hn' : ¬ n = ['S', 'o', 'm', 'e'] := hn
          simp [Value.der, Der.visit, Der.ask, ValueDef.ask, Variant.ask, Value.value, Reply.wrong, Reply.unexp, @eq_comm _ e, hn']
      · simp [Value.der, Der.visit, Der.ask, ValueDef.ask, Variant.ask, Variant.askOption, Composite.elems?, valDers, Value.value, Reply.wrong, Reply.unexp, @eq_comm _ e]
  | bitSequence b => simp [Value.der, Der.visit, Der.ask, ValueDef.ask, bitsReply, Value.value, Reply.wrong, Reply.unexp, @eq_comm _ e]
  | primitive p => cases p <;> simp [Value.der, Der.visit, Der.ask, ValueDef.ask, Primitive.ask, Primitive.any, Value.value, Reply.wrong, Reply.unexp, @eq_comm _ e]

theorem newtype_one {t : Ty} {d x : Der} {e : DeErr} (h : d.visit .newtypeStruct = .seq false [x]) : (Ty.newtype t).deE d = .error e ↔ t.deE x = .error e := by
  rw [Ty.deE, h]
  simp only [Bool.false_eq_true, false_and, if_false]
  cases t.deE x <;> simp

/-- C73: `struct S(T)`: the error of `T`; for bit sequences, that this is not possible. -/
theorem C73_newtype (t : Ty) (v : Value T) (e : DeErr) (h : ∀ x, v.value ≠ .variant x) : (Ty.newtype t).deE v.der = .error e ↔
    ((∃ b, v.value = .bitSequence b) ∧ e = .refused .bitsNewtype) ∨ ((∀ b, v.value ≠ .bitSequence b) ∧ t.deE v.der = .error e) := by
  cases v with | mk d c =>
  cases d with
  | composite f =>
    rw [newtype_one (x := .mk f.ask) (by simp [Value.der, Der.visit, Der.ask, ValueDef.ask]), composite_derE t f c]
    simp [Value.value]
  | variant v => exact absurd rfl (h v)
  | bitSequence b => rw [Ty.deE]; simp [Value.der, Der.visit, Der.ask, ValueDef.ask, Value.value, Reply.wrong, @eq_comm _ e]
  | primitive p =>
    rw [newtype_one (x := .mk p.ask) (by simp [Value.der, Der.visit, Der.ask, ValueDef.ask])]
    have : t.deE (.mk p.ask) = t.deE (Value.mk (.primitive p) c).der := by
      apply deE_congr
      · intro a
        by_cases ha : a = .newtypeStruct
        · subst ha
          simp [Value.der, Der.visit, Der.ask, ValueDef.ask, Primitive.ask]
        · refine (visit_of_ask (e := .mk p.ask) ?_ (by exact primitive_ask_self p a ha)).symm
          cases a <;> first | exact absurd rfl ha | rfl
      · simp [Value.der, Der.ask, ValueDef.ask]
    rw [this]
    simp [Value.value]

/-- C73: `struct S(T)` from a variant: the error of `T`, unless `T` is an `Option` (which is of an invalid type) or a struct (which is read from the fields of the variant). -/
theorem C73_newtype_variant (t : Ty) (n : Str) (f : Composite T) (c : T) (e : DeErr) : (Ty.newtype t).deE (Value.mk (.variant (.mk n f)) c).der = .error e ↔
    match t with
    | .option _ => e = .invalidType .enum .option
    | .struct fs => (Ty.struct fs).deE (Value.mk (.composite f) c).der = .error e
    | t => t.deE (Value.mk (.variant (.mk n f)) c).der = .error e := by
  rw [newtype_one (x := .mk (Variant.mk n f).ask) (by simp [Value.der, Der.visit, Der.ask, ValueDef.ask])]
  split
  · rw [Ty.deE]; simp [Der.visit, Der.ask, Variant.ask, Reply.wrong, Reply.unexp, @eq_comm _ e]
  · next fs =>
    rw [Ty.deE, Ty.deE]
    have : Der.visit (.mk (Variant.mk n f).ask) .struct = (Value.mk (.composite f) c).der.visit .struct := by
      cases f <;> simp [Der.visit, Der.ask, Variant.ask, Value.der, ValueDef.ask, Composite.ask]
    rw [this]
  · next h1 h2 =>
    suffices h : t.deE (.mk (Variant.mk n f).ask) = t.deE (Value.mk (.variant (.mk n f)) c).der by rw [h]
    have agree : ∀ a, a ≠ .option → a ≠ .struct → Der.visit (.mk (Variant.mk n f).ask) a = (Value.mk (.variant (.mk n f)) c).der.visit a := by
      intro a ho hs
      by_cases ha : a = .newtypeStruct
      · subst ha
        simp [Value.der, Der.visit, Der.ask, ValueDef.ask, Variant.ask]
      · refine (visit_of_ask (e := .mk (Variant.mk n f).ask) ?_ (by exact variant_ask_self _ a ha)).symm
        cases a <;> first | exact absurd rfl ha | exact absurd rfl ho | exact absurd rfl hs | rfl
    cases t with
    | option u => exact absurd rfl (h1 u)
    | struct fs => exact absurd rfl (h2 fs)
    | value => simp only [Ty.deE, Value.der, deValueE, ValueDef.ask]
    | _ => simp only [Ty.deE, deBoolE, deNumE, deCharE, deStringE, deBytesE, agree, ne_eq, reduceCtorEq, not_false_eq_true]

/-- What a value shows when it is asked for a sequence, by kind. -/
theorem seq_cases (v : Value T) : (∃ c, v.fields? = some c ∧ v.der.visit .seq = .seq false (c.vals.map Value.der)) ∨
    (v.fields? = none ∧ ∃ b, v.value = .bitSequence b ∧ v.der.visit .seq = .error .bitsSeq) ∨
    (v.fields? = none ∧ ∃ p, v.value = .primitive p ∧ v.der.visit .seq = p.any ∧ v.der.visit .any = p.any) := by
  rcases seq_der v with ⟨c, h1, h2⟩ | ⟨h1, -⟩
  · exact .inl ⟨c, h1, h2⟩
  · right
    cases v with | mk d c =>
    cases d with
    | composite f => cases h1
    | variant x => cases x; cases h1
    | bitSequence b => exact .inl ⟨rfl, b, rfl, rfl⟩
    | primitive p => exact .inr ⟨rfl, p, rfl, by cases p <;> rfl, by cases p <;> rfl⟩

theorem prim_wrong (p : Primitive) (x : Expect) : p.any.wrong x = .invalidType p.any.unexp x := by cases p <;> rfl

/-- C73: `Vec<T>`: the error of the first value that cannot be read as `T`. -/
theorem C73_seq (t : Ty) (v : Value T) (e : DeErr) : (Ty.seq t).deE v.der = .error e ↔
    (∃ c, v.fields? = some c ∧ FirstError (fun w : Value T => t.deE w.der) c.vals e) ∨
    ((∃ b, v.value = .bitSequence b) ∧ e = .refused .bitsSeq) ∨
    ((∃ p, v.value = .primitive p) ∧ ∃ u, ShownAs v u ∧ e = .invalidType u .seq) := by
  simp only [shownAs_iff, exists_eq_left]
  rw [Ty.deE]
  rcases seq_cases v with ⟨c, h1, h2⟩ | ⟨h1, b, h3, h2⟩ | ⟨h1, p, h3, h2, h4⟩
  · rw [h2]
    simp only [mapE_error, allOfE_error, firstError_map, h1, Option.some.injEq, exists_eq_left']
    have hb : ∀ b, v.value ≠ .bitSequence b := by intro b hb; cases v; cases hb; cases h1
    have hp : ∀ b, v.value ≠ .primitive b := by intro b hb; cases v; cases hb; cases h1
    simp [hb, hp]
  · rw [h2]; simp [h1, h3, Reply.wrong, @eq_comm _ e]
  · rw [h2, h4]
    cases p <;> simp [h1, h3, Primitive.any, Reply.wrong, Reply.unexp, @eq_comm _ e]

/-- What a value shows when it is asked for a tuple, by kind. -/
theorem tuple_cases (v : Value T) (k : Nat) :
    (∃ c, v.fields? = some c ∧ c.vals.length = k ∧ v.der.visit (.tuple k) = .seq false (c.vals.map Value.der) ∧ v.der.visit (.tupleStruct k) = .seq false (c.vals.map Value.der)) ∨
    (∃ c, v.fields? = some c ∧ c.vals.length ≠ k ∧ v.der.visit (.tuple k) = .error (.tupleLength c.vals.length k) ∧
      v.der.visit (.tupleStruct k) = .error (.tupleLength c.vals.length k)) ∨
    (v.fields? = none ∧ ∃ b, v.value = .bitSequence b ∧ v.der.visit (.tuple k) = .error .bitsTuple ∧ v.der.visit (.tupleStruct k) = .error .bitsTupleStruct) ∨
    (v.fields? = none ∧ ∃ p, v.value = .primitive p ∧ v.der.visit (.tuple k) = p.any ∧ v.der.visit (.tupleStruct k) = p.any ∧ v.der.visit .any = p.any) := by
  cases v with | mk d c =>
  cases d with
  | composite f =>
    cases f with
    | named fs =>
      by_cases h : fs.length = k
      · exact .inl ⟨_, rfl, by simpa [Composite.vals] using h, by
          simp [Value.der, Der.visit, Der.ask, ValueDef.ask, Composite.ask, h, fieldVals_eq, Composite.vals, Function.comp_def]⟩
      · exact .inr (.inl ⟨_, rfl, by simpa [Composite.vals] using h, by
          simp [Value.der, Der.visit, Der.ask, ValueDef.ask, Composite.ask, h, Composite.vals]⟩)
    | unnamed vs =>
      by_cases h : vs.length = k
      · exact .inl ⟨_, rfl, by simpa [Composite.vals] using h, by
          simp [Value.der, Der.visit, Der.ask, ValueDef.ask, Composite.ask, h, valDers_eq, Composite.vals]⟩
      · exact .inr (.inl ⟨_, rfl, by simpa [Composite.vals] using h, by
          simp [Value.der, Der.visit, Der.ask, ValueDef.ask, Composite.ask, h, Composite.vals]⟩)
  | variant x =>
    cases x with | mk n f =>
    cases f with
    | named fs =>
      by_cases h : fs.length = k
      · exact .inl ⟨_, rfl, by simpa [Composite.vals] using h, by
          simp [Value.der, Der.visit, Der.ask, ValueDef.ask, Variant.ask, Composite.ask, h, fieldVals_eq, Composite.vals, Function.comp_def]⟩
      · exact .inr (.inl ⟨_, rfl, by simpa [Composite.vals] using h, by
          simp [Value.der, Der.visit, Der.ask, ValueDef.ask, Variant.ask, Composite.ask, h, Composite.vals]⟩)
    | unnamed vs =>
      by_cases h : vs.length = k
      · exact .inl ⟨_, rfl, by simpa [Composite.vals] using h, by
          simp [Value.der, Der.visit, Der.ask, ValueDef.ask, Variant.ask, Composite.ask, h, valDers_eq, Composite.vals]⟩
      · exact .inr (.inl ⟨_, rfl, by simpa [Composite.vals] using h, by
          simp [Value.der, Der.visit, Der.ask, ValueDef.ask, Variant.ask, Composite.ask, h, Composite.vals]⟩)
  | bitSequence b => exact .inr (.inr (.inl ⟨rfl, b, rfl, rfl, rfl⟩))
  | primitive p => exact .inr (.inr (.inr ⟨rfl, p, rfl, by cases p <;> rfl, by cases p <;> rfl, by cases p <;> rfl⟩))

theorem zip_map_right' {A B C : Type} (f : B → C) (l : List A) (r : List B) : l.zip (r.map f) = (l.zip r).map (fun p => (p.1, f p.2)) := by
  induction l generalizing r with
  | nil => rfl
  | cons a l ih => cases r with
    | nil => rfl
    | cons b r => simp [ih]

theorem deListE_vals {ts : List Ty} {vs : List (Value T)} (h : vs.length = ts.length) {e : DeErr} : Ty.deListE ts 0 false (vs.map Value.der) = .error e ↔
    FirstError (fun p : Ty × Value T => p.1.deE p.2.der) (ts.zip vs) e := by
  rw [deListE_error, zip_map_right', firstError_map]
  simp [h]

/-- C73: tuples: a wrong number of values is noticed first; then the error is that of the first value that cannot be read as its type. -/
theorem C73_tuple (ts : List Ty) (v : Value T) (e : DeErr) : (Ty.tuple ts).deE v.der = .error e ↔
    (∃ r, Refuses v (.tuple ts.length) r ∧ e = .refused r) ∨
    (∃ c, v.fields? = some c ∧ c.vals.length = ts.length ∧ FirstError (fun p : Ty × Value T => p.1.deE p.2.der) (ts.zip c.vals) e) ∨
    ((∃ p, v.value = .primitive p) ∧ ∃ u, ShownAs v u ∧ e = .invalidType u .tuple) := by
  simp only [shownAs_iff, exists_eq_left, ← refuses_iff]
  rw [Ty.deE]
  have hp : ∀ c, v.fields? = some c → ∀ b, v.value ≠ .primitive b := by intro c hc b hb; cases v; cases hb; cases hc
  rcases tuple_cases v ts.length with ⟨c, h1, h2, h3, -⟩ | ⟨c, h1, h2, h3, -⟩ | ⟨h1, b, h2, h3, -⟩ | ⟨h1, p, h2, h3, -, h4⟩
  · rw [h3]
    simp only [mapE_error, deListE_vals h2]
    simp [h1, h2, hp c h1]
  · rw [h3]; simp [h1, h2, hp c h1, Reply.wrong, @eq_comm _ e]
  · rw [h3]; simp [h1, h2, Reply.wrong, @eq_comm _ e]
  · rw [h3, h4]; cases p <;> simp [h1, h2, Primitive.any, Reply.wrong, Reply.unexp, @eq_comm _ e]

/-- C73: tuple structs: the same. -/
theorem C73_tuple_struct (ts : List Ty) (v : Value T) (e : DeErr) : (Ty.tupleStruct ts).deE v.der = .error e ↔
    (∃ r, Refuses v (.tupleStruct ts.length) r ∧ e = .refused r) ∨
    (∃ c, v.fields? = some c ∧ c.vals.length = ts.length ∧ FirstError (fun p : Ty × Value T => p.1.deE p.2.der) (ts.zip c.vals) e) ∨
    ((∃ p, v.value = .primitive p) ∧ ∃ u, ShownAs v u ∧ e = .invalidType u .tuple) := by
  simp only [shownAs_iff, exists_eq_left, ← refuses_iff]
  rw [Ty.deE]
  have hp : ∀ c, v.fields? = some c → ∀ b, v.value ≠ .primitive b := by intro c hc b hb; cases v; cases hb; cases hc
  rcases tuple_cases v ts.length with ⟨c, h1, h2, -, h3⟩ | ⟨c, h1, h2, -, h3⟩ | ⟨h1, b, h2, -, h3⟩ | ⟨h1, p, h2, -, h3, h4⟩
  · rw [h3]
    simp only [mapE_error, deListE_vals h2]
    simp [h1, h2, hp c h1]
  · rw [h3]; simp [h1, h2, hp c h1, Reply.wrong, @eq_comm _ e]
  · rw [h3]; simp [h1, h2, Reply.wrong, @eq_comm _ e]
  · rw [h3, h4]; cases p <;> simp [h1, h2, Primitive.any, Reply.wrong, Reply.unexp, @eq_comm _ e]

/-- C73: structs from named values: the first entry that is at fault, or the first field that is missing (`StructFault`). -/
theorem C73_struct (fs : List (Str × Ty)) (nd : (fs.map (fun f => f.1)).Nodup) (ps : List (Str × Value T)) (c : T) (e : DeErr) :
    (Ty.struct fs).deE (Value.mk (.composite (.named ps)) c).der = .error e ↔ StructFault fs (ps.map (fun p => (p.1, p.2.der))) e := by
  rw [Ty.deE, mapE_error]
  have : (Value.mk (.composite (.named ps)) c).der.visit .struct = .map false (fieldDers ps) := by simp [Value.der, Der.visit, Der.ask, ValueDef.ask, Composite.ask]
  rw [this]
  refine structMap_error nd (identKeys_fields ps) ?_ _ _ _
  intro p hp
  obtain ⟨q, -, rfl⟩ := List.mem_map.1 hp
  exact ignored_der q.2

/-- C73: structs from unnamed values: the fields are read in order; the first value that cannot be read is at fault, or there are too few. -/
theorem C73_struct_unnamed (fs : List (Str × Ty)) (vs : List (Value T)) (c : T) (e : DeErr) :
    (Ty.struct fs).deE (Value.mk (.composite (.unnamed vs)) c).der = .error e ↔
      FirstError (fun p : (Str × Ty) × Value T => p.1.2.deE p.2.der) (fs.zip vs) e ∨
      (NoError (fun p : (Str × Ty) × Value T => p.1.2.deE p.2.der) (fs.zip vs) ∧ vs.length < fs.length ∧ e = .invalidLength vs.length .struct) := by
  rw [Ty.deE, mapE_error]
  have : (Value.mk (.composite (.unnamed vs)) c).der.visit .struct = .seq false (vs.map Value.der) := by
    simp [Value.der, Der.visit, Der.ask, ValueDef.ask, Composite.ask, valDers_eq]
  rw [this, structOfE, deFieldListE_error, zip_map_right', firstError_map]
  simp only [List.length_map, Nat.zero_add, noError_iff, firstError_map]

/-- C73: structs from a bit sequence: this is taken for a composite with one entry. -/
theorem C73_struct_bits (fs : List (Str × Ty)) (nd : (fs.map (fun f => f.1)).Nodup) (b : List Bool) (c : T) (e : DeErr) :
    (Ty.struct fs).deE (Value.mk (.bitSequence b) c).der = .error e ↔ StructFault fs [("__bitvec__values__".toList, boolsDer b)] e := by
  rw [Ty.deE, mapE_error]
  have : (Value.mk (.bitSequence b) c).der.visit .struct = .map false [(strDer bitIdent, boolsDer b)] := by
    simp [Value.der, Der.visit, Der.ask, ValueDef.ask, bitsReply]
  rw [this]
  refine structMap_error nd ?_ ?_ _ _ _
  · rw [identKeys, deIdent_strDer]; rfl
  · intro p hp
    rw [List.mem_singleton] at hp
    subst hp
    exact deIgnored_bools b

/-- C73: structs from other values, which are of an invalid type. -/
theorem C73_struct_others (fs : List (Str × Ty)) (v : Value T) (h : (∃ x, v.value = .variant x) ∨ ∃ p, v.value = .primitive p) (e : DeErr) :
    (Ty.struct fs).deE v.der = .error e ↔ ∃ u, ShownAs v u ∧ e = .invalidType u .struct := by
  simp only [shownAs_iff, exists_eq_left]
  rw [Ty.deE, mapE_error]
  cases v with | mk d c =>
  rcases h with ⟨⟨n, f⟩, h⟩ | ⟨p, h⟩
  · cases h; simp [Value.der, Der.visit, Der.ask, ValueDef.ask, Variant.ask, structOfE, Reply.wrong, Reply.unexp, @eq_comm _ e]
  · cases h; cases p <;> simp [Value.der, Der.visit, Der.ask, ValueDef.ask, Primitive.ask, Primitive.any, structOfE, Reply.wrong, Reply.unexp, @eq_comm _ e]

theorem vtyE_iff (vt : VTy) (f : Composite T) (c : T) (e : DeErr) : vt.deE (.mk f.ask) (accessOf f.ask) = .error e ↔ VariantError vt (.mk (.composite f) c) e := by
  cases vt with
  | unit =>
    unfold VariantError
    simp only
    rw [← composite_derE, VTy.deE, Ty.deE]
    have hs := composite_ask_self f .unit (by simp)
    simp only [accessOf, Der.visit, Der.ask]
    generalize f.ask .unit = q at hs
    cases q <;> simp_all
  | newtype t =>
    unfold VariantError
    simp only
    rw [← composite_derE, VTy.deE, mapE_error]
  | tuple ts =>
    unfold VariantError
    simp only
    rw [← composite_derE, VTy.deE, Ty.deE]
    have hs := composite_ask_self f (.tuple ts.length) (by simp)
    simp only [accessOf, Der.visit, Der.ask]
    generalize f.ask (.tuple ts.length) = q at hs
    cases q <;> simp_all [mapE_error]
  | struct fs =>
    unfold VariantError
    simp only
    rw [VTy.deE, Ty.deE, mapE_error]
    simp only [accessOf, Der.visit, Value.der, Der.ask, ValueDef.ask]
    have hs := composite_ask_self f .any (by simp)
    generalize f.ask .any = q at hs
    cases q <;> simp_all

theorem deVariantE_error {vs : List (Str × VTy)} (hd : (vs.map (fun p => p.1)).Nodup) {n : Str} {c : Der} {access : VHint → Reply} {e : DeErr} :
    Ty.deVariantE vs n c access = .error e ↔ (n ∉ vs.map (fun p => p.1) ∧ e = .unknownVariant n) ∨ ∃ vt, (n, vt) ∈ vs ∧ vt.deE c access = .error e := by
  induction vs with
  | nil => simp [Ty.deVariantE, @eq_comm _ e]
  | cons p vs ih =>
    obtain ⟨m, vt⟩ := p
    rw [List.map_cons, List.nodup_cons] at hd
    rw [Ty.deVariantE]
    split
    · next h =>
      subst h
      constructor
      · intro h; exact .inr ⟨vt, by simp, h⟩
      · rintro (⟨h, -⟩ | ⟨vt', h1, h2⟩)
        · simp at h
        · rcases List.mem_cons.1 h1 with h1 | h1
          · cases h1; exact h2
          · exact absurd (List.mem_map.2 ⟨_, h1, rfl⟩) hd.1
    · next h =>
      rw [ih hd.2]
      simp only [List.map_cons, List.mem_cons, not_or, Prod.mk.injEq, Ne.symm h, false_and, false_or, not_false_eq_true, true_and]

/-- C73: enums: only variants are read; the name may be unknown, else the error is that of the contents. -/
theorem C73_enum (vs : List (Str × VTy)) (hd : (vs.map (fun p => p.1)).Nodup) (v : Value T) (e : DeErr) : (Ty.enum vs).deE v.der = .error e ↔
    (∃ n f, v.value = .variant (.mk n f) ∧ n ∉ vs.map (fun p => p.1) ∧ e = .unknownVariant n) ∨
    (∃ n f vt c, v.value = .variant (.mk n f) ∧ (n, vt) ∈ vs ∧ VariantError vt (.mk (.composite f) c : Value T) e) ∨
    ((∃ b, v.value = .bitSequence b) ∧ e = .refused .bitsEnum) ∨
    (((∃ c, v.value = .composite c) ∨ ∃ p, v.value = .primitive p) ∧ ∃ u, ShownAs v u ∧ e = .invalidType u .enum) := by
  simp only [shownAs_iff, exists_eq_left]
  rw [Ty.deE]
  cases v with | mk d c =>
  cases d with
  | composite f => cases f <;> simp [Value.der, Der.visit, Der.ask, ValueDef.ask, Composite.ask, Value.value, Reply.wrong, Reply.unexp, @eq_comm _ e]
  | variant x =>
    cases x with | mk n f =>
    have : (Value.mk (.variant (.mk n f)) c).der.visit .enum = .enum (strDer n) (.mk f.ask) (accessOf f.ask) := by
      simp [Value.der, Der.visit, Der.ask, ValueDef.ask, Variant.ask]
    rw [this]
    have hn : deIdentE (strDer n) = .ok n := by simp [deIdentE, strDer, Der.visit, Der.ask]
    simp only [hn, mapE_error, deVariantE_error hd, vtyE_iff _ f c]
    constructor
    · rintro (⟨h1, h2⟩ | ⟨vt, h1, h2⟩)
      · exact .inl ⟨n, f, rfl, h1, h2⟩
      · exact .inr (.inl ⟨n, f, vt, c, rfl, h1, h2⟩)
    · rintro (⟨n', f', h, h1, h2⟩ | ⟨n', f', vt, c', h, h1, h2⟩ | ⟨⟨b, h⟩, -⟩ | ⟨⟨b, h⟩ | ⟨b, h⟩, -⟩)
      · cases h; exact .inl ⟨h1, h2⟩
      · cases h
        refine .inr ⟨vt, h1, ?_⟩
        rw [← vtyE_iff] at h2 ⊢
        exact h2
      · cases h
      · cases h
      · cases h
  | bitSequence b => simp [Value.der, Der.visit, Der.ask, ValueDef.ask, Value.value, Reply.wrong, @eq_comm _ e]
  | primitive p => cases p <;> simp [Value.der, Der.visit, Der.ask, ValueDef.ask, Primitive.ask, Primitive.any, Value.value, Reply.wrong, Reply.unexp, @eq_comm _ e]

theorem deMapE_error {chars : Bool} {t : Ty} {ps : List (Str × Value T)} {acc : List (Str × Dat)} {e : DeErr} :
    deMapE (if chars then fun k => (deCharE k).map (fun c => [c]) else deStringE) t.deE (fieldDers ps) acc = .error e ↔ FirstError (mapEntryE chars t) ps e := by
  induction ps generalizing acc with
  | nil => simp [fieldDers, deMapE, FirstError]
  | cons p ps ih =>
    obtain ⟨k, v⟩ := p
    rw [fieldDers, deMapE, firstError_cons]
    have hk : (if chars then fun k => (deCharE k).map (fun c => [c]) else deStringE) (strDer k) = if chars = true ∧ k.length ≠ 1 then .error (.invalidValue (.str k) .char) else .ok k := by
      cases chars
      · simp [deStringE, strDer, Der.visit, Der.ask]
      · rcases k with _ | ⟨a, _ | ⟨b, k⟩⟩ <;> simp [deCharE, strDer, Der.visit, Der.ask, Except.map]
    rw [hk, mapEntryE]
    by_cases hc : chars = true ∧ k.length ≠ 1
    · simp [hc]
    · simp only [if_neg hc]
      cases t.deE v.der with
      | error e' => simp
      | ok x => simp [ih]

/-- C73: maps: the first entry whose key or value cannot be read; unnamed values, also those of a variant, are of an invalid type. -/
theorem C73_map (chars : Bool) (t : Ty) (v : Value T) (e : DeErr) : (Ty.map chars t).deE v.der = .error e ↔
    (∃ ps, v.fields? = some (.named ps) ∧ FirstError (mapEntryE chars t) ps e) ∨
    (∃ vs, v.fields? = some (.unnamed vs) ∧ e = .invalidType .seq .map) ∨
    ((∃ b, v.value = .bitSequence b) ∧ e = .refused .bitsMap) ∨
    ((∃ p, v.value = .primitive p) ∧ ∃ u, ShownAs v u ∧ e = .invalidType u .map) := by
  simp only [shownAs_iff, exists_eq_left]
  rw [Ty.deE]
  cases v with | mk d c =>
  cases d with
  | composite f =>
    cases f with
    | named fs =>
      have : (Value.mk (.composite (.named fs)) c).der.visit .map = .map false (fieldDers fs) := by simp [Value.der, Der.visit, Der.ask, ValueDef.ask, Composite.ask]
      rw [this]; simp only [mapE_error, deMapE_error]; simp [Value.fields?, Value.value]
    | unnamed vs => simp [Value.der, Der.visit, Der.ask, ValueDef.ask, Composite.ask, Value.value, Value.fields?, Reply.wrong, Reply.unexp, @eq_comm _ e]
  | variant x =>
    cases x with | mk n f =>
    cases f with
    | named fs =>
      have : (Value.mk (.variant (.mk n (.named fs))) c).der.visit .map = .map false (fieldDers fs) := by simp [Value.der, Der.visit, Der.ask, ValueDef.ask, Variant.ask, Composite.ask]
      rw [this]; simp only [mapE_error, deMapE_error]; simp [Value.fields?, Value.value]
    | unnamed vs => simp [Value.der, Der.visit, Der.ask, ValueDef.ask, Variant.ask, Composite.ask, Value.value, Value.fields?, Reply.wrong, Reply.unexp, @eq_comm _ e]
  | bitSequence b => simp [Value.der, Der.visit, Der.ask, ValueDef.ask, Value.value, Value.fields?, Reply.wrong, @eq_comm _ e]
  | primitive p => cases p <;> simp [Value.der, Der.visit, Der.ask, ValueDef.ask, Primitive.ask, Primitive.any, Value.value, Value.fields?, Reply.wrong, Reply.unexp, @eq_comm _ e]

/-! ### The types of the crate -/

theorem deValuesE_eq (l : List Der) : deValuesE l = allOfE deValueE l := by
  induction l with
  | nil => rw [deValuesE, allOfE]
  | cons d l ih =>
    rw [deValuesE, allOfE, ih]
    cases deValueE d with
    | error e => rfl
    | ok v => cases allOfE deValueE l <;> rfl

theorem deEntriesE_error {ps : List (Str × Value T)} {e : DeErr} : deEntriesE (fieldDers ps) = .error e ↔ FirstError (fun p : Str × Value T => deValueE p.2.der) ps e := by
  induction ps with
  | nil => simp [fieldDers, deEntriesE, FirstError]
  | cons p ps ih =>
    obtain ⟨k, v⟩ := p
    rw [fieldDers, deEntriesE, firstError_cons, ← ih]
    have hk : deStringE (strDer k) = .ok k := by simp [deStringE, strDer, Der.visit, Der.ask]
    rw [hk]
    simp only
    cases deValueE v.der with
    | error e' => simp
    | ok x => cases deEntriesE (fieldDers ps) <;> simp

/-- Reading a composite, also that of a variant, as a `Composite`. -/
theorem compositeE_error (f : Composite T) (e : DeErr) : deCompositeE (.mk f.ask) = .error e ↔ FirstError (fun w : Value T => deValueE w.der) f.vals e := by
  rw [deCompositeE]
  cases f with
  | named fs =>
    simp only [Composite.ask, deCompE, Composite.vals, firstError_map]
    rw [← deEntriesE_error]
    cases deEntriesE (fieldDers fs) <;> simp
  | unnamed vs =>
    simp only [Composite.ask, deCompE, Composite.vals, valDers_eq, deValuesE_eq]
    rw [← firstError_map (f := deValueE) (g := Value.der), ← allOfE_error]
    cases allOfE deValueE (vs.map Value.der) <;> simp

theorem vecBool_error {d : Der} {e : DeErr} : deVecE deBoolE d = .error e ↔ (Ty.seq .bool).deE d = .error e := by
  rw [deVecE, Ty.deE]
  have : ∀ l, allOfE deBoolE l = .error e ↔ allOfE Ty.bool.deE l = .error e := by
    intro l
    rw [allOfE_error, allOfE_error]
    have h1 : ∀ y, (∃ b, deBoolE y = .ok b) ↔ ∃ b, Ty.bool.deE y = .ok b := by
      intro y; rw [Ty.deE]; cases deBoolE y <;> simp [Except.map]
    have h2 : ∀ y, deBoolE y = .error e ↔ Ty.bool.deE y = .error e := by
      intro y; rw [Ty.deE, mapE_error]
    simp only [FirstError, h1, h2]
  cases d.visit .seq <;> simp [mapE_error, this]

/-- C73: `Value`: only named values that begin with `__bitvec__values__` cannot be read, when that is not a list of booleans; the first such place is at fault. -/
theorem C73_value (v : Value T) (e : DeErr) : deValueE v.der = .error e ↔
    (∃ x ps, v.value = .composite (.named (("__bitvec__values__".toList, x) :: ps)) ∧ (Ty.seq .bool).deE x.der = .error e) ∨
    ((∀ x ps, v.value ≠ .composite (.named (("__bitvec__values__".toList, x) :: ps))) ∧ ∃ c, v.fields? = some c ∧ FirstError (fun w : Value T => deValueE w.der) c.vals e) := by
  have outer : ∀ (d : ValueDef T) (c : T), deValueE (Value.mk d c).der = .error e ↔ deDefE (d.ask .any) = .error e := by
    intro d c
    rw [Value.der, deValueE]
    cases deDefE (d.ask .any) <;> simp
  cases v with | mk d c =>
  rw [outer]
  cases d with
  | composite f =>
    cases f with
    | named fs =>
      simp only [ValueDef.ask, Composite.ask]
      cases fs with
      | nil => simp [fieldDers, deDefE, Value.value, Value.fields?, Composite.vals, FirstError]
      | cons p fs =>
        obtain ⟨k, x⟩ := p
        rw [fieldDers, deDefE]
        have hk : deStringE (strDer k) = .ok k := by simp [deStringE, strDer, Der.visit, Der.ask]
        rw [hk]
        simp only
        by_cases hb : k = bitIdent
        · rw [if_pos hb]
          subst hb
          refine Iff.trans (b := deVecE deBoolE x.der = .error e) (by cases deVecE deBoolE x.der <;> simp) ?_
          rw [vecBool_error]
          constructor
          · intro h; exact .inl ⟨x, fs, rfl, h⟩
          · rintro (⟨x', ps, h, h1⟩ | ⟨h, -⟩)
            · cases h; exact h1
            · exact absurd rfl (h x fs)
        · rw [if_neg hb]
          refine Iff.trans (b := FirstError (fun p : Str × Value T => deValueE p.2.der) ((k, x) :: fs) e) ?_ ?_
          · rw [firstError_cons, ← deEntriesE_error]
            simp only
            cases deValueE x.der with
            | error e' => simp
            | ok w => cases deEntriesE (fieldDers fs) <;> simp
          constructor
          · intro h
            refine .inr ⟨?_, _, rfl, ?_⟩
            · intro x' ps h; cases h; exact hb rfl
            · rw [Composite.vals, firstError_map]; exact h
          · rintro (⟨x', ps, h, h1⟩ | ⟨-, c', h, h1⟩)
            · cases h; exact absurd rfl hb
            · cases h; rw [Composite.vals, firstError_map] at h1; exact h1
    | unnamed vs =>
      simp only [ValueDef.ask, Composite.ask, deDefE, deValuesE_eq, valDers_eq]
      refine Iff.trans (b := allOfE deValueE (vs.map Value.der) = .error e) (by cases allOfE deValueE (vs.map Value.der) <;> simp) ?_
      rw [allOfE_error, firstError_map]
      simp [Value.value, Value.fields?, Composite.vals]
  | variant x =>
    cases x with | mk n f =>
    simp only [ValueDef.ask, Variant.ask, deDefE]
    have hk : deStringE (strDer n) = .ok n := by simp [deStringE, strDer, Der.visit, Der.ask]
    rw [hk]
    simp only
    refine Iff.trans (b := deCompositeE (.mk f.ask) = .error e) (by cases deCompositeE (.mk f.ask) <;> simp) ?_
    rw [compositeE_error]
    simp [Value.value, Value.fields?]
  | bitSequence b =>
    have hk : deStringE (strDer bitIdent) = .ok bitIdent := by simp [deStringE, strDer, Der.visit, Der.ask]
    simp only [ValueDef.ask, bitsReply, deDefE, hk, if_true]
    have hb : deVecE deBoolE (boolsDer b) = .ok b := by
      have := deVecE_agree deBoolE_agree (boolsDer b)
      have h2 : deVec deBool (boolsDer b) = some b := allOf_bools b
      rw [h2] at this
      exact toOption_ok.1 this
    rw [hb]
    simp [Value.value, Value.fields?]
  | primitive p => cases p <;> simp [ValueDef.ask, Primitive.ask, Primitive.any, deDefE, Value.value, Value.fields?]

/-- C73: `Composite`: variants, and primitives other than 256 bit numbers, are of an invalid type. -/
theorem C73_composite (v : Value T) (e : DeErr) : deCompositeE v.der = .error e ↔
    (∃ c, v.value = .composite c ∧ FirstError (fun w : Value T => deValueE w.der) c.vals e) ∨
    (((∃ x, v.value = .variant x) ∨ ∃ p, v.value = .primitive p ∧ ∀ b, p ≠ .u256 b ∧ p ≠ .i256 b) ∧ ∃ u, ShownAs v u ∧ e = .invalidType u .composite) := by
  simp only [shownAs_iff, exists_eq_left]
  cases v with | mk d c =>
  cases d with
  | composite f =>
    have h : deCompositeE (Value.mk (.composite f) c).der = deCompositeE (.mk f.ask) := by simp only [Value.der, deCompositeE, ValueDef.ask]
    rw [h, compositeE_error]
    simp [Value.value]
  | variant x => cases x; simp [Value.der, deCompositeE, deCompE, ValueDef.ask, Variant.ask, Value.value, Der.visit, Der.ask, Reply.unexp, @eq_comm _ e]
  | bitSequence b =>
    have hk : deStringE (strDer bitIdent) = .ok bitIdent := by simp [deStringE, strDer, Der.visit, Der.ask]
    have hb : ∃ w, deValueE (boolsDer b) = .ok w := by
      have : ∀ l : List Bool, deValuesE (l.map boolDer) = .ok (l.map Value.bool) := by
        intro l
        induction l with
        | nil => rw [List.map_nil, deValuesE]; rfl
        | cons a l ih => rw [List.map_cons, deValuesE, ih]; rfl
      refine ⟨.unnamedComposite (b.map Value.bool), ?_⟩
      rw [boolsDer, deValueE, deDefE, this]; rfl
    obtain ⟨w, hw⟩ := hb
    simp [Value.der, deCompositeE, deCompE, ValueDef.ask, bitsReply, deEntriesE, hk, hw, Value.value]
  | primitive p => cases p <;> simp [Value.der, deCompositeE, deCompE, ValueDef.ask, Primitive.ask, Primitive.any, Value.value, Der.visit, Der.ask, Reply.unexp, @eq_comm _ e]

/-- An entry of a composite that is read as a `Variant`. -/
theorem variantLoopE_error {ps : List (Str × Value T)} {n : Option Str} {c : Option (Composite Unit)} {e : DeErr} :
    variantLoopE (fieldDers ps) n c = .error e ↔ ∃ pre p post, ps = pre ++ p :: post ∧ (∀ q ∈ pre, ∀ e', ¬ VariantEntryFault q e') ∧ VariantEntryFault p e := by
  induction ps generalizing n c with
  | nil => simp [fieldDers, variantLoopE]
  | cons p ps ih =>
    obtain ⟨k, v⟩ := p
    have hk : deStringE (strDer k) = .ok k := by simp [deStringE, strDer, Der.visit, Der.ask]
    have nv : "name".toList ≠ "values".toList := by decide
    have first : ∀ {P : Prop}, (P ↔ VariantEntryFault (k, v) e ∨ (∀ e', ¬ VariantEntryFault (k, v) e') ∧
        ∃ pre p post, ps = pre ++ p :: post ∧ (∀ q ∈ pre, ∀ e', ¬ VariantEntryFault q e') ∧ VariantEntryFault p e) →
        (P ↔ ∃ pre p post, (k, v) :: ps = pre ++ p :: post ∧ (∀ q ∈ pre, ∀ e', ¬ VariantEntryFault q e') ∧ VariantEntryFault p e) := by
      intro P h
      rw [h]
      constructor
      · rintro (h' | ⟨h', pre, p, post, rfl, h1, h2⟩)
        · exact ⟨[], _, _, rfl, by simp, h'⟩
        · refine ⟨(k, v) :: pre, p, post, rfl, ?_, h2⟩
          intro q hq
          rcases List.mem_cons.1 hq with rfl | hq
          · exact h'
          · exact h1 q hq
      · rintro ⟨pre, p, post, h0, h1, h2⟩
        cases pre with
        | nil => cases h0; exact .inl h2
        | cons q pre => cases h0; exact .inr ⟨h1 _ (by simp), pre, p, post, rfl, fun q hq => h1 q (by simp [hq]), h2⟩
    apply first
    rw [fieldDers, variantLoopE, hk]
    simp only
    split
    · next hn =>
      have hf : ∀ e', VariantEntryFault (k, v) e' ↔ deStringE v.der = .error e' := by
        intro e'
        constructor
        · intro h
          cases h with
          | name _ h => exact h
          | values h' _ => exact absurd (hn.symm.trans h') nv
          | other h _ => exact absurd hn h
        · exact fun h => .name (p := (k, v)) hn h
      simp only [hf]
      cases deStringE v.der with
      | error e' => simp
      | ok s => simp [ih]
    · next hn =>
      split
      · next hv =>
        have hf : ∀ e', VariantEntryFault (k, v) e' ↔ deCompositeE v.der = .error e' := by
          intro e'
          constructor
          · intro h
            cases h with
            | name h _ => exact absurd h hn
            | values _ h => exact h
            | other _ h => exact absurd hv h
          · exact fun h => .values (p := (k, v)) hv h
        simp only [hf]
        cases deCompositeE v.der with
        | error e' => simp
        | ok s => simp [ih]
      · next hv =>
        have hf : ∀ e', VariantEntryFault (k, v) e' ↔ e' = .unknownField k := by
          intro e'
          constructor
          · intro h
            cases h with
            | name h _ => exact absurd h hn
            | values h _ => exact absurd h hv
            | other _ h => rfl
          · rintro rfl; exact .other hn hv
        simp only [hf]
        simp [@eq_comm _ e]

theorem variantLoopE_ok {ps : List (Str × Value T)} {n : Option Str} {c : Option (Composite Unit)} {x : Option Str × Option (Composite Unit)}
    (h : variantLoopE (fieldDers ps) n c = .ok x) :
    (x.1 = none ↔ n = none ∧ "name".toList ∉ ps.map (fun p => p.1)) ∧ (x.2 = none ↔ c = none ∧ "values".toList ∉ ps.map (fun p => p.1)) := by
  induction ps generalizing n c with
  | nil => rw [fieldDers, variantLoopE] at h; cases h; simp
  | cons p ps ih =>
    obtain ⟨k, v⟩ := p
    have hk : deStringE (strDer k) = .ok k := by simp [deStringE, strDer, Der.visit, Der.ask]
    have nv : "name".toList ≠ "values".toList := by decide
    rw [fieldDers, variantLoopE, hk] at h
    simp only at h
    split at h
    · next hn =>
      subst hn
      cases hs : deStringE v.der with
      | error e => rw [hs] at h; cases h
      | ok s =>
        rw [hs] at h
        obtain ⟨h1, h2⟩ := ih h
        rw [h1, h2]
        simp only [List.map_cons, List.mem_cons, not_or]
        exact ⟨⟨fun h => by simp at h, fun h => by simp at h⟩, ⟨fun h => ⟨h.1, fun h => nv h.symm, h.2⟩, fun h => ⟨h.1, h.2.2⟩⟩⟩
    · next hn =>
      split at h
      · next hv =>
        subst hv
        cases hs : deCompositeE v.der with
        | error e => rw [hs] at h; cases h
        | ok s =>
          rw [hs] at h
          obtain ⟨h1, h2⟩ := ih h
          rw [h1, h2]
          simp only [List.map_cons, List.mem_cons, not_or]
          exact ⟨⟨fun h => ⟨h.1, fun h => nv h, h.2⟩, fun h => ⟨h.1, h.2.2⟩⟩, ⟨fun h => by simp at h, fun h => by simp at h⟩⟩
      · cases h

/-- C73: `Variant`: from a variant, the first value that cannot be read; from named values, the first entry that is at fault, or that the name or the values are missing. A bit sequence has
an entry of another name. All else is of an invalid type. -/
theorem C73_variant (v : Value T) (e : DeErr) : deVariantE v.der = .error e ↔
    (∃ n c, v.value = .variant (.mk n c) ∧ FirstError (fun w : Value T => deValueE w.der) c.vals e) ∨
    (∃ ps pre p post, v.value = .composite (.named ps) ∧ ps = pre ++ p :: post ∧ (∀ q ∈ pre, ∀ e', ¬ VariantEntryFault q e') ∧ VariantEntryFault p e) ∨
    (∃ ps, v.value = .composite (.named ps) ∧ (∀ q ∈ ps, ∀ e', ¬ VariantEntryFault q e') ∧
      ("name".toList ∉ ps.map (fun p => p.1) ∨ "values".toList ∉ ps.map (fun p => p.1)) ∧ e = .noNameAndValues) ∨
    ((∃ b, v.value = .bitSequence b) ∧ e = .unknownField "__bitvec__values__".toList) ∨
    (((∃ vs, v.value = .composite (.unnamed vs)) ∨ ∃ p, v.value = .primitive p) ∧ ∃ u, ShownAs v u ∧ e = .invalidType u .variant) := by
  simp only [shownAs_iff, exists_eq_left]
  cases v with | mk d c =>
  cases d with
  | composite f =>
    cases f with
    | unnamed vs => simp [deVariantE, Value.der, Der.visit, Der.ask, ValueDef.ask, Composite.ask, Value.value, Reply.wrong, Reply.unexp, @eq_comm _ e]
    | named ps =>
      have hv : (Value.mk (.composite (.named ps)) c).der.visit .any = .map false (fieldDers ps) := by simp [Value.der, Der.visit, Der.ask, ValueDef.ask, Composite.ask]
      rw [deVariantE, hv]
      simp only [Value.value, reduceCtorEq, false_and, exists_false, false_or, or_false, ValueDef.composite.injEq, Composite.named.injEq]
      cases hl : variantLoopE (fieldDers ps) none none with
      | error e' =>
        obtain ⟨pre, p, post, h1, h2, h3⟩ := variantLoopE_error.1 hl
        constructor
        · intro h; cases h; exact .inl ⟨ps, pre, p, post, rfl, h1, h2, h3⟩
        · rintro (⟨ps', pre, p, post, rfl, h⟩ | ⟨ps', rfl, h, -⟩)
          · have := (variantLoopE_error (n := none) (c := none)).2 ⟨pre, p, post, h⟩
            rw [hl] at this; cases this; rfl
          · exact absurd h3 (h p (by rw [h1]; simp) e')
      | ok x =>
        have hno : ∀ q ∈ ps, ∀ e', ¬ VariantEntryFault q e' := by
          have key : ∀ (ps : List (Str × Value T)) (n : Option Str) (c : Option (Composite Unit)) x, variantLoopE (fieldDers ps) n c = .ok x → ∀ q ∈ ps, ∀ e', ¬ VariantEntryFault q e' := by
            intro ps n c x hl q hq e' hf
            -- the first faulty entry
            have : ∃ pre p post e', ps = pre ++ p :: post ∧ (∀ q ∈ pre, ∀ e', ¬ VariantEntryFault q e') ∧ VariantEntryFault p e' := by
              clear hl
              induction ps with
              | nil => cases hq
              | cons a ps ih =>
                by_cases ha : ∃ e', VariantEntryFault a e'
                · obtain ⟨e', ha⟩ := ha
                  exact ⟨[], a, ps, e', rfl, by simp, ha⟩
                · rcases List.mem_cons.1 hq with rfl | hq
                  · exact absurd ⟨_, hf⟩ ha
                  · obtain ⟨pre, p, post, e', rfl, h1, h2⟩ := ih hq
                    refine ⟨a :: pre, p, post, e', rfl, ?_, h2⟩
                    intro q hq e' h
                    rcases List.mem_cons.1 hq with rfl | hq
                    · exact ha ⟨e', h⟩
                    · exact h1 q hq e' h
            obtain ⟨pre, p, post, e', h⟩ := this
            rw [variantLoopE_error.2 ⟨pre, p, post, h⟩] at hl
            cases hl
          exact key ps _ _ _ hl
        obtain ⟨h1, h2⟩ := variantLoopE_ok hl
        simp only [true_and] at h1 h2
        constructor
        · intro h
          refine .inr ⟨ps, rfl, hno, ?_⟩
          obtain ⟨n, m⟩ := x
          cases n with
          | none => exact ⟨.inl (h1.1 rfl), by cases h; rfl⟩
          | some n =>
            cases m with
            | none => exact ⟨.inr (h2.1 rfl), by cases h; rfl⟩
            | some m => cases h
        · rintro (⟨ps', pre, p, post, rfl, rfl, h3, h4⟩ | ⟨ps', rfl, -, h3, rfl⟩)
          · exact absurd h4 (hno p (by simp) e)
          · obtain ⟨n, m⟩ := x
            rcases h3 with h3 | h3
            · cases (h1.2 h3); rfl
            · cases (h2.2 h3); cases n <;> rfl
  | variant x =>
    cases x with | mk n f =>
    have hv : (Value.mk (.variant (.mk n f)) c).der.visit .any = .enum (strDer n) (.mk f.ask) (accessOf f.ask) := by simp [Value.der, Der.visit, Der.ask, ValueDef.ask, Variant.ask]
    have hk : deStringE (strDer n) = .ok n := by simp [deStringE, strDer, Der.visit, Der.ask]
    rw [deVariantE, hv]
    simp only [hk]
    refine Iff.trans (b := deCompositeE (.mk f.ask) = .error e) (by cases deCompositeE (.mk f.ask) <;> simp) ?_
    rw [compositeE_error]
    simp [Value.value]
  | bitSequence b =>
    have hv : (Value.mk (.bitSequence b) c).der.visit .any = .map false [(strDer bitIdent, boolsDer b)] := by simp [Value.der, Der.visit, Der.ask, ValueDef.ask, bitsReply]
    have hk : deStringE (strDer bitIdent) = .ok bitIdent := by simp [deStringE, strDer, Der.visit, Der.ask]
    rw [deVariantE, hv]
    simp only [variantLoopE, hk]
    rw [if_neg (by decide), if_neg (by decide)]
    simp only [Value.value, reduceCtorEq, false_and, exists_false, false_or, or_false, Except.error.injEq, @eq_comm _ e, ValueDef.bitSequence.injEq, exists_eq', true_and]
    exact Iff.rfl
  | primitive p => cases p <;> simp [deVariantE, Value.der, Der.visit, Der.ask, ValueDef.ask, Primitive.ask, Primitive.any, Value.value, Reply.wrong, Reply.unexp, @eq_comm _ e]

theorem allOfE_length {A B : Type} {f : A → Except DeErr B} {l : List A} {r : List B} (h : allOfE f l = .ok r) : r.length = l.length := by
  induction l generalizing r with
  | nil => rw [allOfE] at h; cases h; rfl
  | cons a l ih =>
    rw [allOfE] at h
    cases ha : f a with
    | error e => rw [ha] at h; cases h
    | ok b =>
      rw [ha] at h
      cases hl : allOfE f l with
      | error e => rw [hl] at h; cases h
      | ok bs => rw [hl] at h; cases h; simp [ih hl]

/-- C73: `Primitive`: unnamed values have to be 32 bytes; variants, named values and bit sequences are of an invalid type. -/
theorem C73_primitive (v : Value T) (e : DeErr) : dePrimitiveE v.der = .error e ↔
    (∃ vs, v.value = .composite (.unnamed vs) ∧ FirstError (fun w : Value T => (Ty.num .u8).deE w.der) vs e) ∨
    (∃ vs, v.value = .composite (.unnamed vs) ∧ NoError (fun w : Value T => (Ty.num .u8).deE w.der) vs ∧ vs.length ≠ 32 ∧ e = .invalidLength vs.length .bytes32) ∨
    (((∃ x, v.value = .variant x) ∨ (∃ ps, v.value = .composite (.named ps)) ∨ ∃ b, v.value = .bitSequence b) ∧ ∃ u, ShownAs v u ∧ e = .invalidType u .primitive) := by
  simp only [shownAs_iff, exists_eq_left]
  cases v with | mk d c =>
  cases d with
  | composite f =>
    cases f with
    | named ps => simp [dePrimitiveE, Value.der, Der.visit, Der.ask, ValueDef.ask, Composite.ask, Value.value, Reply.wrong, Reply.unexp, @eq_comm _ e]
    | unnamed vs =>
      have hv : (Value.mk (.composite (.unnamed vs)) c).der.visit .any = .seq false (vs.map Value.der) := by
        simp [Value.der, Der.visit, Der.ask, ValueDef.ask, Composite.ask, valDers_eq]
      have hn : ∀ e', allOfE (deNumE .u8) (vs.map Value.der) = .error e' ↔ FirstError (fun w : Value T => (Ty.num .u8).deE w.der) vs e' := by
        intro e'
        rw [allOfE_error, firstError_map]
        have h1 : ∀ y : Value T, (∃ b, deNumE .u8 y.der = .ok b) ↔ ∃ b, (Ty.num .u8).deE y.der = .ok b := by
          intro y; rw [Ty.deE]; cases deNumE .u8 y.der <;> simp [Except.map]
        have h2 : ∀ y : Value T, deNumE .u8 y.der = .error e' ↔ (Ty.num .u8).deE y.der = .error e' := by
          intro y; rw [Ty.deE, mapE_error]
        simp only [FirstError, h1, h2]
      rw [dePrimitiveE, hv]
      simp only [Value.value, ValueDef.composite.injEq, Composite.unnamed.injEq, exists_eq_left', reduceCtorEq, exists_false, false_or, false_and, or_false, noError_iff, ← hn]
      cases hl : allOfE (deNumE .u8) (vs.map Value.der) with
      | error e' => simp
      | ok ns =>
        have hlen := allOfE_length hl
        rw [List.length_map] at hlen
        simp only [reduceCtorEq, false_or, not_false_eq_true, forall_const, true_and]
        unfold bytes32?
        by_cases h : vs.length = 32
        · rw [dif_pos (by simp [hlen, h])]; simp [h]
        · rw [dif_neg (by simp [hlen, h])]; simp [h, hlen, @eq_comm _ e]
  | variant x => cases x; simp [dePrimitiveE, Value.der, Der.visit, Der.ask, ValueDef.ask, Variant.ask, Value.value, Reply.wrong, Reply.unexp, @eq_comm _ e]
  | bitSequence b => simp [dePrimitiveE, Value.der, Der.visit, Der.ask, ValueDef.ask, bitsReply, Value.value, Reply.wrong, Reply.unexp, @eq_comm _ e]
  | primitive p =>
    cases p with
    | u256 b => simp [dePrimitiveE, Value.der, Der.visit, Der.ask, ValueDef.ask, Primitive.ask, Primitive.any, Value.value, bytes32?, b.len]
    | i256 b => simp [dePrimitiveE, Value.der, Der.visit, Der.ask, ValueDef.ask, Primitive.ask, Primitive.any, Value.value, bytes32?, b.len]
    | _ => simp [dePrimitiveE, Value.der, Der.visit, Der.ask, ValueDef.ask, Primitive.ask, Primitive.any, Value.value]

/-- C73: what these visitors say that they expect. -/
theorem C73_expected : Expect.value.text = some "a type that can be decoded into a Value".toList ∧ Expect.composite.text = some "a type that can be decoded into a Composite value".toList ∧
    Expect.variant.text = some "a type that can be decoded into an enum Variant".toList ∧ Expect.primitive.text = some "a type that can be decoded into a Primitive value".toList ∧
    Expect.bytes32.text = some "exactly 32 bytes".toList := ⟨rfl, rfl, rfl, rfl, rfl⟩

/-! ### Cases -/

/-- A struct with a missing and a bad entry: the bad one counts; without it, the missing one; a duplicate counts when it comes first. -/
example : (Ty.struct [("a".toList, .num .u8), ("b".toList, .bool)]).deE (Value.namedComposite [("x".toList, exU 1), ("b".toList, exU 1)] : Value Unit).der =
    .error (.invalidType (.num ⟨.u128, 1, by decide, by decide⟩) .bool) := rfl
example : (Ty.struct [("a".toList, .num .u8), ("b".toList, .bool)]).deE (Value.namedComposite [("b".toList, Value.bool true)]).der = .error (.missingField "a".toList) := rfl
example : (Ty.struct [("a".toList, .num .u8), ("b".toList, .bool)]).deE (Value.namedComposite [("b".toList, Value.bool true), ("b".toList, exU 1)]).der = .error (.duplicateField "b".toList) := rfl
example : Ty.Proper (.struct [("a".toList, .num .u8), ("b".toList, .bool)]) := by
  simp only [Ty.Proper, Ty.ProperFields, and_true]; decide
/-- A number that does not fit is "of an invalid type", with its 128 bit type. -/
example : (Ty.num .u8).deE (exU 300).der = .error (.invalidType (.num ⟨.u128, 300, by decide, by decide⟩) (.num .u8)) := rfl
/-- The length of a tuple counts before its elements. -/
example : (Ty.tuple [.bool, .bool]).deE (Value.unnamedComposite [exU 1]).der = .error (.refused (.tupleLength 1 2)) := rfl
example : (Refusal.tupleLength 1 2).display [] = "Cannot deserialize composite of length 1 into tuple of length 2".toList := rfl
example : Ty.bytes.deE (Value.unnamedComposite [exU 1, exU 256, Value.bool true]).der = .error (.refused .byteRange) := rfl
example : deVariantE (Value.namedComposite [("name".toList, Value.string "A".toList)]).der = .error .noNameAndValues := rfl
example : deVariantE (Value.namedComposite [("nam".toList, Value.string "A".toList)]).der = .error (.unknownField "nam".toList) := rfl
example : dePrimitiveE (Value.unnamedComposite [exU 1]).der = .error (.invalidLength 1 .bytes32) := rfl

end SV
