import Verif.Props.Serde
import Verif.Proofs.Codec
import Verif.Spec.Encode
/-
Property C52: what values are read as, type by type. (Numbers are C43, options C44, structs C49, newtypes C50, values C41.)
-/
namespace SV

variable {T : Type}

/-- The values are read as the types, in order, giving the data; there are as many of each. -/
def ReadsAll (ts : List Ty) (vs : List (Value T)) (ds : List Dat) : Prop :=
  vs.length = ts.length ∧ ds.length = ts.length ∧
    ∀ (i : Nat) (t : Ty) (v : Value T) (d : Dat), ts[i]? = some t → vs[i]? = some v → ds[i]? = some d → t.de v.der = some d

theorem readsAll_iff {ts : List Ty} {vs : List (Value T)} {ds : List Dat} :
    ReadsAll ts vs ds ↔ vs.length = ts.length ∧ Ty.deList ts false (vs.map Value.der) = some ds := by
  induction ts generalizing vs ds with
  | nil =>
    cases vs with
    | nil => cases ds <;> simp [ReadsAll, Ty.deList]
    | cons v vs => simp [ReadsAll]
  | cons t ts ih =>
    cases vs with
    | nil => simp [ReadsAll]
    | cons v vs =>
      rw [List.map_cons, Ty.deList]
      cases ds with
      | nil =>
        constructor
        · rintro ⟨h1, h2, -⟩; simp at h2
        · rintro ⟨-, h⟩
          split at h
          · cases h
          · split at h <;> cases h
      | cons d ds =>
        constructor
        · rintro ⟨h1, h2, h3⟩
          have := (ih (vs := vs) (ds := ds)).1 ⟨by simpa using h1, by simpa using h2, fun i => by simpa using h3 (i + 1)⟩
          refine ⟨h1, ?_⟩
          rw [h3 0 t v d rfl rfl rfl, this.2]
        · rintro ⟨h1, h⟩
          split at h
          · cases h
          · next x hx =>
            split at h
            · cases h
            · next xs hxs =>
              cases h
              obtain ⟨h2, h3, h4⟩ := ih.2 ⟨by simpa using h1, hxs⟩
              refine ⟨h1, by simp [h3], fun i => ?_⟩
              cases i with
              | zero => intro t v d a b c; cases a; cases b; cases c; exact hx
              | succ i => simpa using h4 i

/-! ### C52 -/

/-- C52: only booleans are read as `bool`. -/
theorem C52_bool (v : Value T) (d : Dat) : Ty.bool.de v.der = some d ↔ ∃ b, v.value = .primitive (.bool b) ∧ d = .bool b := by
  rw [Ty.de, Option.map_eq_some_iff]
  simp only [deBool_der]
  constructor
  · rintro ⟨b, ⟨c, rfl⟩, rfl⟩; exact ⟨b, rfl, rfl⟩
  · rintro ⟨b, h, rfl⟩; cases v; cases h; exact ⟨b, ⟨_, rfl⟩, rfl⟩

/-- C52: characters, and strings of one character, are read as `char`. -/
theorem C52_char (v : Value T) (d : Dat) : Ty.char.de v.der = some d ↔
    ∃ c, (v.value = .primitive (.char c) ∨ v.value = .primitive (.string [c])) ∧ d = .char c := by
  cases v with | mk e c =>
  cases e with
  | composite f => cases f <;> simp [Ty.de, Value.der, deChar, Der.visit, Der.ask, ValueDef.ask, Composite.ask, Value.value]
  | variant v => cases v; simp [Ty.de, Value.der, deChar, Der.visit, Der.ask, ValueDef.ask, Variant.ask, Value.value]
  | bitSequence b => simp [Ty.de, Value.der, deChar, Der.visit, Der.ask, ValueDef.ask, bitsReply, Value.value]
  | primitive p =>
    cases p with
    | string s =>
      rcases s with _ | ⟨a, _ | ⟨b, s⟩⟩ <;> simp [Ty.de, Value.der, deChar, Der.visit, Der.ask, ValueDef.ask, Primitive.ask, Primitive.any, Value.value, eq_comm]
    | _ => simp [Ty.de, Value.der, deChar, Der.visit, Der.ask, ValueDef.ask, Primitive.ask, Primitive.any, Value.value, eq_comm]

/-- C52: strings and characters are read as `String`; so are 256 bit numbers whose bytes happen to be UTF-8. -/
theorem C52_string (v : Value T) (d : Dat) : Ty.string.de v.der = some d ↔ ∃ s, d = .str s ∧
    (v.value = .primitive (.string s) ∨ (∃ c, s = [c] ∧ v.value = .primitive (.char c)) ∨
      ∃ b : Bytes32, b.bytes = utf8Bytes s ∧ (v.value = .primitive (.u256 b) ∨ v.value = .primitive (.i256 b))) := by
  cases v with | mk e c =>
  cases e with
  | composite f => cases f <;> simp [Ty.de, Value.der, deString, Der.visit, Der.ask, ValueDef.ask, Composite.ask, Value.value]
  | variant v => cases v; simp [Ty.de, Value.der, deString, Der.visit, Der.ask, ValueDef.ask, Variant.ask, Value.value]
  | bitSequence b => simp [Ty.de, Value.der, deString, Der.visit, Der.ask, ValueDef.ask, bitsReply, Value.value]
  | primitive p =>
    cases p <;> simp [Ty.de, Value.der, deString, Der.visit, Der.ask, ValueDef.ask, Primitive.ask, Primitive.any, Value.value, eq_comm]
    all_goals
      constructor
      · rintro ⟨s, h1, h2⟩; exact ⟨s, h2, fromUtf8_iff.1 h1.symm⟩
      · rintro ⟨s, h1, h2⟩; exact ⟨s, (fromUtf8_iff.2 h2).symm, h1⟩

/-- C52: composites without values, and variants without values, whatever their name, are read as `()` and as `struct S;`. -/
theorem C52_unit (v : Value T) (d : Dat) :
    (Ty.unit.de v.der = some d ↔ ∃ c, v.fields? = some c ∧ c.vals = [] ∧ d = .unit) ∧
    (Ty.unitStruct.de v.der = some d ↔ ∃ c, v.fields? = some c ∧ c.vals = [] ∧ d = .unit) := by
  cases v with | mk e c =>
  cases e with
  | composite f =>
    rcases f with (_ | ⟨x, l⟩) | (_ | ⟨x, l⟩) <;> simp [Ty.de, Value.der, Der.visit, Der.ask, ValueDef.ask, Composite.ask, Value.fields?, Composite.vals]
    all_goals exact eq_comm
  | variant v =>
    cases v with | mk n f =>
    rcases f with (_ | ⟨x, l⟩) | (_ | ⟨x, l⟩) <;> simp [Ty.de, Value.der, Der.visit, Der.ask, ValueDef.ask, Variant.ask, Composite.ask, Value.fields?, Composite.vals]
    all_goals exact eq_comm
  | bitSequence b => simp [Ty.de, Value.der, Der.visit, Der.ask, ValueDef.ask, Value.fields?]
  | primitive p => cases p <;> simp [Ty.de, Value.der, Der.visit, Der.ask, ValueDef.ask, Primitive.ask, Primitive.any, Value.fields?]

/-- C52: composites and variants are read as `Vec<T>`, if all their values are read as `T`; names are ignored. -/
theorem C52_seq (t : Ty) (v : Value T) (d : Dat) : (Ty.seq t).de v.der = some d ↔
    ∃ c ds, v.fields? = some c ∧ ReadsAll (List.replicate c.vals.length t) c.vals ds ∧ d = .list ds := by
  have h : (Ty.seq t).de v.der = (deVec t.de v.der).map .list := by
    rw [Ty.de]; unfold deVec
    cases v.der.visit .seq <;> rfl
  rw [h, Option.map_eq_some_iff]
  constructor
  · rintro ⟨ds, h1, rfl⟩
    obtain ⟨c, h2, h3⟩ := (deVec_iff _ _ _).1 h1
    refine ⟨c, ds, h2, ?_, rfl⟩
    rw [← pointwise_forall₂] at h3
    refine ⟨by simp, by simpa using h3.1.symm, ?_⟩
    intro i u w x h4 h5 h6
    obtain ⟨h7, -⟩ := List.getElem?_eq_some_iff.1 h4
    rw [List.getElem?_replicate] at h4
    split at h4
    · cases h4; exact h3.2 i w x h5 h6
    · cases h4
  · rintro ⟨c, ds, h1, ⟨h2, h3, h4⟩, rfl⟩
    refine ⟨ds, (deVec_iff _ _ _).2 ⟨c, h1, ?_⟩, rfl⟩
    rw [← pointwise_forall₂]
    refine ⟨by simpa using h3.symm, ?_⟩
    intro i w x h5 h6
    refine h4 i t w x ?_ h5 h6
    obtain ⟨h7, -⟩ := List.getElem?_eq_some_iff.1 h5
    rw [List.getElem?_replicate, if_pos h7]

theorem tuple_der (v : Value T) (n : Nat) (a : Hint) (ha : a = .tuple n ∨ a = .tupleStruct n) :
    (∃ f, v.fields? = some f ∧ f.vals.length = n ∧ v.der.visit a = .seq false (f.vals.map Value.der)) ∨
    ((∀ f, v.fields? = some f → f.vals.length ≠ n) ∧ ∀ c l, v.der.visit a ≠ .seq c l) := by
  cases v with | mk d c =>
  cases d with
  | composite f =>
    cases f with
    | named fs =>
      rcases ha with rfl | rfl <;> by_cases hn : fs.length = n <;>
        simp [Value.der, Der.visit, Der.ask, ValueDef.ask, Composite.ask, fieldVals_eq, Composite.vals, Value.fields?, Function.comp_def, hn]
    | unnamed fs =>
      rcases ha with rfl | rfl <;> by_cases hn : fs.length = n <;>
        simp [Value.der, Der.visit, Der.ask, ValueDef.ask, Composite.ask, valDers_eq, Composite.vals, Value.fields?, Function.comp_def, hn]
  | variant v =>
    cases v with | mk nm f =>
    cases f with
    | named fs =>
      rcases ha with rfl | rfl <;> by_cases hn : fs.length = n <;>
        simp [Value.der, Der.visit, Der.ask, ValueDef.ask, Variant.ask, Composite.ask, fieldVals_eq, Composite.vals, Value.fields?, Function.comp_def, hn]
    | unnamed fs =>
      rcases ha with rfl | rfl <;> by_cases hn : fs.length = n <;>
        simp [Value.der, Der.visit, Der.ask, ValueDef.ask, Variant.ask, Composite.ask, valDers_eq, Composite.vals, Value.fields?, Function.comp_def, hn]
  | bitSequence b => right; rcases ha with rfl | rfl <;> exact ⟨by simp [Value.fields?], by simp [Value.der, Der.visit, Der.ask, ValueDef.ask]⟩
  | primitive p =>
    right
    rcases ha with rfl | rfl <;> refine ⟨by simp [Value.fields?], ?_⟩ <;> cases p <;> simp [Value.der, Der.visit, Der.ask, ValueDef.ask, Primitive.ask, Primitive.any]

/-- C52: composites and variants are read as tuples and as tuple structs precisely if they have as many values, and each is read as its type. -/
theorem C52_tuple (ts : List Ty) (v : Value T) (d : Dat) :
    ((Ty.tuple ts).de v.der = some d ↔ ∃ c ds, v.fields? = some c ∧ ReadsAll ts c.vals ds ∧ d = .list ds) ∧
    ((Ty.tupleStruct ts).de v.der = some d ↔ ∃ c ds, v.fields? = some c ∧ ReadsAll ts c.vals ds ∧ d = .list ds) := by
  have key : ∀ a, a = Hint.tuple ts.length ∨ a = Hint.tupleStruct ts.length →
      ((match v.der.visit a with | .seq closed l => (Ty.deList ts closed l).map Dat.list | _ => none) = some d ↔
        ∃ c ds, v.fields? = some c ∧ ReadsAll ts c.vals ds ∧ d = .list ds) := by
    intro a ha
    rcases tuple_der v ts.length a ha with ⟨f, h1, h2, h3⟩ | ⟨h1, h2⟩
    · rw [h3]
      simp only [h1, Option.map_eq_some_iff]
      constructor
      · rintro ⟨ds, h4, rfl⟩; exact ⟨f, ds, rfl, readsAll_iff.2 ⟨h2, h4⟩, rfl⟩
      · rintro ⟨f', ds, h3, h4, rfl⟩; cases h3; exact ⟨ds, (readsAll_iff.1 h4).2, rfl⟩
    · constructor
      · intro h
        revert h
        generalize v.der.visit a = q at h2
        cases q <;> first | (intro h; cases h; done) | exact (h2 _ _ rfl).elim
      · rintro ⟨f, ds, h3, ⟨h4, -⟩, -⟩
        exact (h1 f h3 h4).elim
  constructor
  · rw [Ty.de]; exact key _ (.inl rfl)
  · rw [Ty.de]; exact key _ (.inr rfl)

theorem bytesOf_iff {vs : List (Value T)} {bs : List UInt8} : bytesOf vs = .ok bs ↔
    vs.length = bs.length ∧ ∀ (i : Nat) v b, vs[i]? = some v → bs[i]? = some b → ∃ n, v.value = .primitive (.u128 n) ∧ n.val = b.toNat := by
  have one : ∀ (v : Value T) b, byteOf v = .ok b ↔ ∃ n, v.value = .primitive (.u128 n) ∧ n.val = b.toNat := by
    intro v b
    unfold byteOf
    split
    · next n hn =>
      rw [hn]
      constructor
      · intro h
        split at h
        · next hlt =>
          cases h
          exact ⟨n, rfl, by rw [UInt8.toNat_ofNat']; omega⟩
        · cases h
      · rintro ⟨m, h, hm⟩
        cases h
        have := b.toNat_lt
        rw [if_pos (by omega), hm, UInt8.ofNat_toNat]
    · next hn =>
      constructor
      · intro h; cases h
      · rintro ⟨n, h, -⟩; exact (hn n h).elim
  induction vs generalizing bs with
  | nil => cases bs <;> simp [bytesOf]
  | cons v vs ih =>
    unfold bytesOf
    cases bs with
    | nil =>
      simp
      split
      · simp
      · split <;> simp
    | cons b bs =>
      constructor
      · intro h
        split at h
        · cases h
        · next x hx =>
          split at h
          · cases h
          · next xs hxs =>
            cases h
            obtain ⟨h1, h2⟩ := ih.1 hxs
            refine ⟨by simp [h1], fun i => ?_⟩
            cases i with
            | zero => intro v b a c; cases a; cases c; exact (one _ _).1 hx
            | succ i => simpa using h2 i
      · rintro ⟨h1, h2⟩
        rw [(one v b).2 (h2 0 v b rfl rfl)]
        simp only
        rw [ih.2 ⟨by simpa using h1, fun i => by simpa using h2 (i + 1)⟩]

/-- C52: byte buffers (of `serde_bytes`) are read from composites of unsigned numbers that are bytes; from strings and characters, as UTF-8; and from 256 bit numbers, as the 32
bytes that these are made of. -/
theorem C52_bytes (v : Value T) (d : Dat) : Ty.bytes.de v.der = some d ↔ ∃ bs, d = .bytes bs ∧
    ((∃ c, v.value = .composite c ∧ c.vals.length = bs.length ∧
        ∀ (i : Nat) w b, c.vals[i]? = some w → bs[i]? = some b → ∃ n, w.value = .primitive (.u128 n) ∧ n.val = b.toNat) ∨
      (∃ s, v.value = .primitive (.string s) ∧ bs = utf8Bytes s) ∨
      (∃ c, v.value = .primitive (.char c) ∧ bs = utf8Bytes [c]) ∨
      ∃ b : Bytes32, bs = b.bytes ∧ (v.value = .primitive (.u256 b) ∨ v.value = .primitive (.i256 b))) := by
  have comp : ∀ c : Composite T, (Der.mk c.ask).visit .bytes = match bytesOf c.vals with | .ok bs => .bytes bs | .error e => .error e := by
    intro c
    cases c with
    | named fs => simp only [Der.visit, Der.ask, Composite.ask, Composite.vals]; cases bytesOf (fs.map (fun p => p.2)) <;> rfl
    | unnamed vs => simp only [Der.visit, Der.ask, Composite.ask, Composite.vals]; cases bytesOf vs <;> rfl
  cases v with | mk e x =>
  cases e with
  | composite c =>
    have h : (Value.mk (.composite c) x).der.visit .bytes = (Der.mk c.ask).visit .bytes := by
      simp only [Der.visit, Value.der, Der.ask, ValueDef.ask]
      cases c <;> simp only [Composite.ask]
      · generalize bytesOf _ = q; cases q <;> rfl
      · generalize bytesOf _ = q; cases q <;> rfl
    rw [Ty.de, deBytes, h, comp]
    simp only [Value.value, ValueDef.composite.injEq, reduceCtorEq, false_and, exists_false, or_false, exists_eq_left', and_false, or_self]
    constructor
    · intro h
      cases hb : bytesOf c.vals with
      | error e => rw [hb] at h; cases h
      | ok bs => rw [hb] at h; cases h; exact ⟨bs, rfl, bytesOf_iff.1 hb⟩
    · rintro ⟨bs, rfl, h⟩
      rw [bytesOf_iff.2 h]; rfl
  | variant v => cases v; simp [Ty.de, Value.der, deBytes, Der.visit, Der.ask, ValueDef.ask, Variant.ask, Value.value]
  | bitSequence b => simp [Ty.de, Value.der, deBytes, Der.visit, Der.ask, ValueDef.ask, Value.value]
  | primitive p => cases p <;> simp [Ty.de, Value.der, deBytes, Der.visit, Der.ask, ValueDef.ask, Primitive.ask, Primitive.any, Value.value, eq_comm]

/-- The contents of a variant, given as a composite value, are read as those of a variant of an enum: nothing, one thing for the whole composite, a tuple, or a struct. -/
def ReadsVariant (vt : VTy) (f : Value T) (ds : List Dat) : Prop :=
  match vt with
  | .unit => Ty.unit.de f.der = some .unit ∧ ds = []
  | .newtype t => ∃ d, t.de f.der = some d ∧ ds = [d]
  | .tuple ts => (Ty.tuple ts).de f.der = some (.list ds)
  | .struct fs => (Ty.struct fs).de f.der = some (.list ds)

theorem composite_der (t : Ty) (f : Composite T) (c : T) : t.de (.mk f.ask) = t.de (Value.mk (.composite f) c).der := by
  apply de_congr
  · intro a
    by_cases ha : a = .newtypeStruct
    · subst ha
      cases f <;> simp [Value.der, Der.visit, Der.ask, ValueDef.ask, Composite.ask]
    · refine (visit_of_ask (e := .mk f.ask) ?_ (by exact composite_ask_self f a ha)).symm
      cases f <;> cases a <;> first | exact absurd rfl ha | rfl
  · simp [Value.der, Der.ask, ValueDef.ask]

theorem vty_iff (vt : VTy) (f : Composite T) (c : T) (ds : List Dat) : vt.de (.mk f.ask) (accessOf f.ask) = some ds ↔ ReadsVariant vt (.mk (.composite f) c) ds := by
  cases vt with
  | unit =>
    unfold ReadsVariant
    simp only
    rw [← composite_der, VTy.de, Ty.de]
    have hs := composite_ask_self f .unit (by simp)
    simp only [accessOf, Der.visit, Der.ask]
    generalize f.ask .unit = q at hs
    cases q <;> simp_all [eq_comm]
  | newtype t =>
    unfold ReadsVariant
    simp only
    rw [← composite_der, VTy.de, Option.map_eq_some_iff]
    simp only [eq_comm]
  | tuple ts =>
    unfold ReadsVariant
    simp only
    rw [← composite_der, VTy.de, Ty.de]
    have hs := composite_ask_self f (.tuple ts.length) (by simp)
    simp only [accessOf, Der.visit, Der.ask]
    generalize f.ask (.tuple ts.length) = q at hs
    cases q <;> simp_all
  | struct fs =>
    unfold ReadsVariant
    simp only
    rw [VTy.de, Ty.de]
    simp only [accessOf, Der.visit, Value.der, Der.ask, ValueDef.ask]
    have hs := composite_ask_self f .any (by simp)
    generalize f.ask .any = q at hs
    cases q <;> simp_all

theorem deVariant_iff {vs : List (Str × VTy)} {n : Str} {c : Der} {access : VHint → Reply} {ds : List Dat} : Ty.deVariant vs n c access = some ds ↔
    ∃ pre vt post, vs = pre ++ (n, vt) :: post ∧ (∀ p ∈ pre, p.1 ≠ n) ∧ vt.de c access = some ds := by
  induction vs with
  | nil => simp [Ty.deVariant]
  | cons p vs ih =>
    obtain ⟨m, v⟩ := p
    rw [Ty.deVariant]
    split
    · next hn =>
      subst hn
      constructor
      · intro h; exact ⟨[], v, vs, rfl, by simp, h⟩
      · rintro ⟨pre, vt, post, h1, h2, h3⟩
        cases pre with
        | nil => cases h1; exact h3
        | cons q pre => cases h1; exact (h2 (m, v) (by simp) rfl).elim
    · next hn =>
      rw [ih]
      constructor
      · rintro ⟨pre, vt, post, rfl, h2, h3⟩
        exact ⟨(m, v) :: pre, vt, post, rfl, by simpa [hn] using h2, h3⟩
      · rintro ⟨pre, vt, post, h1, h2, h3⟩
        cases pre with
        | nil => cases h1; exact (hn rfl).elim
        | cons q pre => cases h1; exact ⟨pre, vt, post, rfl, fun p hp => h2 p (by simp [hp]), h3⟩

/-- C52: only variants are read as enums: by the name, and with the contents read as those of the variant of that name. -/
theorem C52_enum (vs : List (Str × VTy)) (hd : (vs.map (fun p => p.1)).Nodup) (v : Value T) (d : Dat) : (Ty.enum vs).de v.der = some d ↔
    ∃ n f ds vt c, v.value = .variant (.mk n f) ∧ (n, vt) ∈ vs ∧ ReadsVariant vt (.mk (.composite f) c) ds ∧ d = .enum n ds := by
  cases v with | mk e x =>
  cases e with
  | composite f => cases f <;> simp [Ty.de, Value.der, Der.visit, Der.ask, ValueDef.ask, Composite.ask, Value.value]
  | bitSequence b => simp [Ty.de, Value.der, Der.visit, Der.ask, ValueDef.ask, Value.value]
  | primitive p => cases p <;> simp [Ty.de, Value.der, Der.visit, Der.ask, ValueDef.ask, Primitive.ask, Primitive.any, Value.value]
  | variant w =>
    cases w with | mk n f =>
    rw [de_enum, Option.map_eq_some_iff]
    simp only [Value.value, ValueDef.variant.injEq, Variant.mk.injEq, deVariant_iff]
    constructor
    · rintro ⟨ds, ⟨pre, vt, post, rfl, h2, h3⟩, rfl⟩
      exact ⟨n, f, ds, vt, x, ⟨rfl, rfl⟩, by simp, (vty_iff vt f x ds).1 h3, rfl⟩
    · rintro ⟨n', f', ds, vt, c, ⟨rfl, rfl⟩, h2, h3, rfl⟩
      obtain ⟨pre, post, rfl⟩ := List.append_of_mem h2
      refine ⟨ds, ⟨pre, vt, post, rfl, ?_, (vty_iff vt _ c ds).2 h3⟩, rfl⟩
      intro p hp hpn
      simp only [List.map_append, List.map_cons, List.nodup_append] at hd
      exact hd.2.2 _ (List.mem_map_of_mem hp) n (by simp) hpn

/-! ### Maps -/

theorem lastNamed_cons {p : Str × Value T} {l : List (Str × Value T)} {k : Str} {w : Value T} :
    LastNamed (p :: l) k w ↔ LastNamed l k w ∨ ((∀ w', (k, w') ∉ l) ∧ p = (k, w)) := by
  constructor
  · rintro ⟨a, b, h1, h2⟩
    cases a with
    | nil => cases h1; exact .inr ⟨h2, rfl⟩
    | cons q a => cases h1; exact .inl ⟨a, b, rfl, h2⟩
  · rintro (⟨a, b, rfl, h2⟩ | ⟨h1, rfl⟩)
    · exact ⟨p :: a, b, rfl, h2⟩
    · exact ⟨[], l, rfl, h1⟩

theorem insertMap_mem {es : List (Str × Dat)} {k : Str} {d : Dat} (k' : Str) (x : Dat) : (k', x) ∈ insertMap es k d ↔ if k' = k then x = d else (k', x) ∈ es := by
  unfold insertMap
  by_cases hk : k' = k
  · subst hk
    rw [if_pos rfl]
    split
    · next h =>
      obtain ⟨p, hp, hpk⟩ := List.mem_map.1 h
      constructor
      · intro hm
        obtain ⟨q, -, hq⟩ := List.mem_map.1 hm
        split at hq
        · cases hq; rfl
        · next hn => rw [hq] at hn; exact (hn rfl).elim
      · rintro rfl
        exact List.mem_map.2 ⟨p, hp, by rw [if_pos hpk]⟩
    · next h =>
      constructor
      · intro hm
        rcases List.mem_append.1 hm with hm | hm
        · exact (h (List.mem_map_of_mem (f := fun p => p.1) hm)).elim
        · simpa using hm
      · rintro rfl; simp
  · rw [if_neg hk]
    split
    · constructor
      · intro hm
        obtain ⟨q, hq1, hq⟩ := List.mem_map.1 hm
        split at hq
        · cases hq; exact (hk rfl).elim
        · rwa [← hq]
      · intro hm
        exact List.mem_map.2 ⟨_, hm, by rw [if_neg hk]⟩
    · simp [hk]

theorem insertMap_nodup {es : List (Str × Dat)} {k : Str} {d : Dat} (h : (es.map (fun p => p.1)).Nodup) : ((insertMap es k d).map (fun p => p.1)).Nodup := by
  unfold insertMap
  split
  · rw [List.map_map]
    have : ((fun p : Str × Dat => p.1) ∘ fun p => if p.1 = k then (k, d) else p) = fun p => p.1 := by
      funext p
      simp only [Function.comp]
      split
      · next h => exact h.symm
      · rfl
    rwa [this]
  · next hn =>
    rw [List.map_append, List.nodup_append]
    refine ⟨h, by simp, ?_⟩
    intro a ha b hb
    simp only [List.map_cons, List.map_nil, List.mem_singleton] at hb
    rintro rfl
    exact hn (hb ▸ ha)

theorem deMap_sound {key : Der → Option Str} {f : Der → Option Dat} (hk : ∀ s s', key (strDer s) = some s' → s' = s) :
    ∀ {l : List (Str × Value T)} {acc m : List (Str × Dat)}, (acc.map (fun p => p.1)).Nodup → deMap key f (fieldDers l) acc = some m →
      (m.map (fun p => p.1)).Nodup ∧ ∀ k x, (k, x) ∈ m ↔ (∃ w, LastNamed l k w ∧ f w.der = some x) ∨ ((∀ w, (k, w) ∉ l) ∧ (k, x) ∈ acc)
  | [], acc, m, hn, h => by
    simp only [fieldDers, deMap, Option.some.injEq] at h
    subst h
    refine ⟨hn, fun k x => ?_⟩
    simp [LastNamed]
  | (n, v) :: l, acc, m, hn, h => by
    rw [fieldDers, deMap] at h
    split at h
    · cases h
    · next s hs =>
      have := hk n s hs
      subst this
      split at h
      · cases h
      · next d hd =>
        obtain ⟨h1, h2⟩ := deMap_sound hk (insertMap_nodup hn) h
        refine ⟨h1, fun k x => ?_⟩
        rw [h2, insertMap_mem]
        simp only [lastNamed_cons]
        constructor
        · rintro (⟨w, h3, h4⟩ | ⟨h3, h4⟩)
          · exact .inl ⟨w, .inl h3, h4⟩
          · split at h4
            · next hk' => subst hk' h4; exact .inl ⟨v, .inr ⟨h3, rfl⟩, hd⟩
            · next hk' =>
              refine .inr ⟨?_, h4⟩
              intro w hw
              rcases List.mem_cons.1 hw with hw | hw
              · cases hw; exact hk' rfl
              · exact h3 w hw
        · rintro (⟨w, h3 | ⟨h3, h5⟩, h4⟩ | ⟨h3, h4⟩)
          · exact .inl ⟨w, h3, h4⟩
          · cases h5
            rw [hd] at h4; cases h4
            exact .inr ⟨h3, by rw [if_pos rfl]⟩
          · refine .inr ⟨fun w hw => h3 w (by simp [hw]), ?_⟩
            rw [if_neg]
            · exact h4
            · rintro rfl; exact h3 v (by simp)

theorem deMap_total {key : Der → Option Str} {f : Der → Option Dat} : ∀ {l : List (Str × Value T)} {acc : List (Str × Dat)},
    (∃ m, deMap key f (fieldDers l) acc = some m) ↔ ∀ p ∈ l, (∃ s, key (strDer p.1) = some s) ∧ ∃ x, f p.2.der = some x
  | [], acc => by simp [fieldDers, deMap]
  | (n, v) :: l, acc => by
    rw [fieldDers]
    simp only [deMap, List.mem_cons, forall_eq_or_imp]
    cases hs : key (strDer n) with
    | none => simp
    | some s =>
      cases hd : f v.der with
      | none => simp
      | some d => simpa using deMap_total

theorem map_der (v : Value T) : (∃ l, v.fields? = some (.named l) ∧ v.der.visit .map = .map false (fieldDers l)) ∨
    ((∀ l, v.fields? ≠ some (.named l)) ∧ ∀ c l, v.der.visit .map ≠ .map c l) := by
  cases v with | mk d c =>
  cases d with
  | composite f =>
    cases f with
    | named fs => left; exact ⟨fs, rfl, by simp [Value.der, Der.visit, Der.ask, ValueDef.ask, Composite.ask]⟩
    | unnamed vs => right; exact ⟨by simp [Value.fields?], by simp [Value.der, Der.visit, Der.ask, ValueDef.ask, Composite.ask]⟩
  | variant v =>
    cases v with | mk n f =>
    cases f with
    | named fs => left; exact ⟨fs, rfl, by simp [Value.der, Der.visit, Der.ask, ValueDef.ask, Variant.ask, Composite.ask]⟩
    | unnamed vs => right; exact ⟨by simp [Value.fields?], by simp [Value.der, Der.visit, Der.ask, ValueDef.ask, Variant.ask, Composite.ask]⟩
  | bitSequence b => right; exact ⟨by simp [Value.fields?], by simp [Value.der, Der.visit, Der.ask, ValueDef.ask]⟩
  | primitive p => right; refine ⟨by simp [Value.fields?], ?_⟩; cases p <;> simp [Value.der, Der.visit, Der.ask, ValueDef.ask, Primitive.ask, Primitive.any]

/-- How keys of a map are read. -/
def mapKey (chars : Bool) : Der → Option Str := if chars then fun k => (deChar k).map (fun c => [c]) else deString

theorem mapKey_iff (chars : Bool) (s s' : Str) : mapKey chars (strDer s) = some s' ↔ s' = s ∧ (chars = true → s.length = 1) := by
  unfold mapKey
  cases chars with
  | false => simp [deString, strDer, Der.visit, Der.ask, eq_comm]
  | true => rcases s with _ | ⟨a, _ | ⟨b, s⟩⟩ <;> simp [deChar, strDer, Der.visit, Der.ask, eq_comm]

theorem de_map {chars : Bool} {t : Ty} {v : Value T} {d : Dat} : (Ty.map chars t).de v.der = some d ↔
    ∃ l m, v.fields? = some (.named l) ∧ deMap (mapKey chars) t.de (fieldDers l) [] = some m ∧ d = .map m := by
  rw [Ty.de]
  rcases map_der v with ⟨l, h1, h2⟩ | ⟨h1, h2⟩
  · rw [h2, h1]
    simp only [Option.map_eq_some_iff]
    constructor
    · rintro ⟨m, h, rfl⟩; exact ⟨l, m, rfl, h, rfl⟩
    · rintro ⟨l', m, h, h', rfl⟩; cases h; exact ⟨m, h', rfl⟩
  · constructor
    · intro h
      revert h
      generalize v.der.visit .map = q at h2
      cases q <;> first | (intro h; cases h; done) | exact (h2 _ _ rfl).elim
    · rintro ⟨l, m, h, -⟩; exact (h1 l h).elim

/-- C52: named composites, and variants with named fields, whatever their name, are read as maps precisely if all their values (and keys, when these are `char`s) can be read. -/
theorem C52_map (chars : Bool) (t : Ty) (v : Value T) : (∃ d, (Ty.map chars t).de v.der = some d) ↔
    ∃ l, v.fields? = some (.named l) ∧ ∀ p ∈ l, (∃ x, t.de p.2.der = some x) ∧ (chars = true → p.1.length = 1) := by
  simp only [de_map]
  have key : ∀ l : List (Str × Value T), (∃ m, deMap (mapKey chars) t.de (fieldDers l) [] = some m) ↔ ∀ p ∈ l, (∃ x, t.de p.2.der = some x) ∧ (chars = true → p.1.length = 1) := by
    intro l
    rw [deMap_total]
    refine forall₂_congr fun p _ => ?_
    rw [and_comm]
    refine and_congr_right fun _ => ?_
    simp only [mapKey_iff, exists_eq_left]
  constructor
  · rintro ⟨d, l, m, h1, h2, -⟩; exact ⟨l, h1, (key l).1 ⟨m, h2⟩⟩
  · rintro ⟨l, h1, h2⟩
    obtain ⟨m, hm⟩ := (key l).2 h2
    exact ⟨_, l, m, h1, hm, rfl⟩

/-- C52: the map has each of the names as a key once, with the last of the values of that name. -/
theorem C52_map_entries (chars : Bool) (t : Ty) (v : Value T) (d : Dat) (h : (Ty.map chars t).de v.der = some d) :
    ∃ l m, v.fields? = some (.named l) ∧ d = .map m ∧ (m.map (fun p => p.1)).Nodup ∧ ∀ k x, (k, x) ∈ m ↔ ∃ w, LastNamed l k w ∧ t.de w.der = some x := by
  obtain ⟨l, m, h1, h2, rfl⟩ := de_map.1 h
  obtain ⟨h3, h4⟩ := deMap_sound (fun s s' hs => ((mapKey_iff chars s s').1 hs).1) (by simp) h2
  exact ⟨l, m, h1, rfl, h3, by simpa using h4⟩

/-! ### C52 is about something -/

example : Ty.unit.de (Value.variant "Hi".toList (.unnamed [])).der = some .unit := rfl
example : Ty.unit.de (Value.namedComposite [("a".toList, exU 1)]).der = none := rfl
example : (Ty.tuple [.num .u8, .bool]).de (Value.namedComposite [("a".toList, exU 1), ("b".toList, .bool true)]).der =
    some (.list [.num ⟨.u8, 1, by decide, by decide⟩, .bool true]) := rfl
example : (Ty.tuple [.num .u8]).de (Value.unnamedComposite [exU 1, exU 2]).der = none := rfl
example : (Ty.seq (.num .u8)).de (Value.variant "V".toList (.named [("a".toList, exU 1)])).der = some (.list [.num ⟨.u8, 1, by decide, by decide⟩]) := rfl
example : Ty.bytes.de (Value.unnamedComposite [exU 1, exU 255]).der = some (.bytes [1, 255]) := rfl
example : Ty.bytes.de (Value.unnamedComposite [exU 1, exU 256]).der = none := rfl
example : (Ty.map false .bool).de (Value.namedComposite [("a".toList, .bool true), ("b".toList, .bool true), ("a".toList, .bool false)]).der =
    some (.map [("a".toList, .bool false), ("b".toList, .bool true)]) := rfl
example : (Ty.enum [("A".toList, .unit), ("B".toList, .tuple [.bool, .bool])]).de (Value.variant "B".toList (.named [("x".toList, .bool true), ("y".toList, .bool false)])).der =
    some (.enum "B".toList [.bool true, .bool false]) := rfl

end SV
