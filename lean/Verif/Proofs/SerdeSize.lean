import Verif.Spec.SerdeSize
import Verif.Proofs.Size
import Verif.Proofs.EncSize
/-
Proofs for how large values made by serde are.
-/
namespace SV

variable {T : Type}

/-! ### Sums -/

theorem pw_sum_le {A B : Type} (f : B → Nat) (g : A → Nat) : ∀ (xs : List A) (vs : List B), xs.length = vs.length →
    (∀ (i : Nat) (x : A) (v : B), xs[i]? = some x → vs[i]? = some v → f v ≤ g x) → (vs.map f).sum ≤ (xs.map g).sum
  | [], [], _, _ => Nat.le_refl _
  | [], _ :: _, hl, _ => by simp at hl
  | _ :: _, [], hl, _ => by simp at hl
  | x :: xs, v :: vs, hl, h => by
    have h0 := h 0 x v rfl rfl
    have h1 := pw_sum_le f g xs vs (by simpa using hl) (fun i a b ha hb => h (i + 1) a b (by simpa using ha) (by simpa using hb))
    simp only [List.map_cons, List.sum_cons]; omega

theorem pw_sum_eq {A B : Type} (f : B → Nat) (g : A → Nat) (xs : List A) (vs : List B) (hl : xs.length = vs.length)
    (h : ∀ (i : Nat) (x : A) (v : B), xs[i]? = some x → vs[i]? = some v → f v = g x) : (vs.map f).sum = (xs.map g).sum :=
  Nat.le_antisymm (pw_sum_le f g xs vs hl (fun i x v a b => Nat.le_of_eq (h i x v a b))) (pw_sum_le g f vs xs hl.symm (fun i v x a b => Nat.le_of_eq (h i x v b a).symm))

theorem sum_add {A : Type} (f g : A → Nat) : ∀ xs : List A, (xs.map (fun x => f x + g x)).sum = (xs.map f).sum + (xs.map g).sum
  | [] => rfl
  | x :: xs => by have := sum_add f g xs; simp only [List.map_cons, List.sum_cons] at this ⊢; omega

theorem sum_mul {A : Type} (k : Nat) (f : A → Nat) : ∀ xs : List A, (xs.map (fun x => k * f x)).sum = k * (xs.map f).sum
  | [] => by simp
  | x :: xs => by have := sum_mul k f xs; simp only [List.map_cons, List.sum_cons, Nat.mul_add] at this ⊢; omega

theorem valuesSize_sum : ∀ vs : List (Value T), valuesSize vs = (vs.map Value.size).sum
  | [] => rfl
  | v :: vs => by simp [valuesSize, valuesSize_sum vs]
theorem fieldsSize_sum : ∀ fs : List (Str × Value T), fieldsSize fs = (fs.map (fun p => p.2.size)).sum
  | [] => rfl
  | (_, v) :: fs => by simp [fieldsSize, fieldsSize_sum fs]
theorem valuesNameSize_sum : ∀ vs : List (Value T), valuesNameSize vs = (vs.map Value.nameSize).sum
  | [] => rfl
  | v :: vs => by simp [valuesNameSize, valuesNameSize_sum vs]
theorem fieldsNameSize_sum : ∀ fs : List (Str × Value T), fieldsNameSize fs = (fs.map (fun p => p.1.length + p.2.nameSize)).sum
  | [] => rfl
  | (_, v) :: fs => by simp [fieldsNameSize, fieldsNameSize_sum fs]
theorem sersSize_sum : ∀ xs, sersSize xs = (xs.map Ser.size).sum
  | [] => rfl
  | x :: xs => by simp [sersSize, sersSize_sum xs]
theorem entriesSize_sum : ∀ xs, entriesSize xs = (xs.map (fun p => p.2.size)).sum
  | [] => rfl
  | (_, x) :: xs => by simp [entriesSize, entriesSize_sum xs]
theorem serFieldsSize_sum : ∀ xs, serFieldsSize xs = (xs.map (fun p => p.2.size)).sum
  | [] => rfl
  | (_, x) :: xs => by simp [serFieldsSize, serFieldsSize_sum xs]
theorem sersNameSize_sum : ∀ xs, sersNameSize xs = (xs.map Ser.nameSize).sum
  | [] => rfl
  | x :: xs => by simp [sersNameSize, sersNameSize_sum xs]
theorem entriesNameSize_sum : ∀ xs, entriesNameSize xs = (xs.map (fun p => p.1.keySize + p.2.nameSize)).sum
  | [] => rfl
  | (_, x) :: xs => by simp [entriesNameSize, entriesNameSize_sum xs]
theorem serFieldsNameSize_sum : ∀ xs, serFieldsNameSize xs = (xs.map (fun p => p.1.length + p.2.nameSize)).sum
  | [] => rfl
  | (_, x) :: xs => by simp [serFieldsNameSize, serFieldsNameSize_sum xs]
theorem docsSize_sum : ∀ xs, docsSize xs = (xs.map Doc.size).sum
  | [] => rfl
  | x :: xs => by simp [docsSize, docsSize_sum xs]
theorem docEntriesSize_sum : ∀ xs, docEntriesSize xs = (xs.map (fun p => p.2.size)).sum
  | [] => rfl
  | (_, x) :: xs => by simp [docEntriesSize, docEntriesSize_sum xs]
theorem docsNameSize_sum : ∀ xs, docsNameSize xs = (xs.map Doc.nameSize).sum
  | [] => rfl
  | x :: xs => by simp [docsNameSize, docsNameSize_sum xs]
theorem docEntriesNameSize_sum : ∀ xs, docEntriesNameSize xs = (xs.map (fun p => p.1.keySize + p.2.nameSize)).sum
  | [] => rfl
  | (_, x) :: xs => by simp [docEntriesNameSize, docEntriesNameSize_sum xs]

theorem names_getElem {A B : Type} {es : List (Str × A)} {fs : List (Str × B)} (names : es.map (fun p => p.1) = fs.map (fun p => p.1)) :
    es.length = fs.length ∧ ∀ (i : Nat) (e : Str × A) (f : Str × B), es[i]? = some e → fs[i]? = some f → e.1 = f.1 := by
  refine ⟨by simpa using congrArg List.length names, fun i e f he hf => ?_⟩
  have := congrArg (fun l => l[i]?) names
  simpa [he, hf] using this

theorem byteList_size {bs : List UInt8} {vs : List (Value Unit)} (h : ByteList bs vs) : valuesSize vs = bs.length ∧ valuesNameSize vs = 0 := by
  have e : bs.length = vs.length := h.1.symm
  have h1 := pw_sum_eq Value.size (fun _ => 1) bs vs e (fun i b v hb hv => by obtain ⟨u, _, rfl⟩ := h.2 i b v hb hv; rfl)
  have h2 := pw_sum_eq Value.nameSize (fun _ => 0) bs vs e (fun i b v hb hv => by obtain ⟨u, _, rfl⟩ := h.2 i b v hb hv; rfl)
  refine ⟨?_, ?_⟩
  · rw [valuesSize_sum, h1]; clear h h1 h2 e; induction bs with
    | nil => rfl
    | cons b bs ih => simp only [List.map_cons, List.sum_cons, List.length_cons, ih]; omega
  · rw [valuesNameSize_sum, h2]; clear h h1 h2 e; induction bs with
    | nil => rfl
    | cons b bs ih => simp only [List.map_cons, List.sum_cons, ih]

theorem boolList_size {vs : List (Value T)} {bs : List Bool} (h : BoolList vs bs) : valuesSize vs = bs.length ∧ valuesNameSize vs = 0 := by
  have h1 := pw_sum_eq Value.size (fun _ => 1) bs vs h.1.symm (fun i b v hb hv => by obtain ⟨u, rfl⟩ := h.2 i v b hv hb; rfl)
  have h2 := pw_sum_eq Value.nameSize (fun _ => 0) bs vs h.1.symm (fun i b v hb hv => by obtain ⟨u, rfl⟩ := h.2 i v b hv hb; rfl)
  refine ⟨?_, ?_⟩
  · rw [valuesSize_sum, h1]; clear h h1 h2; induction bs with
    | nil => rfl
    | cons b bs ih => simp only [List.map_cons, List.sum_cons, List.length_cons, ih]; omega
  · rw [valuesNameSize_sum, h2]; clear h h1 h2; induction bs with
    | nil => rfl
    | cons b bs ih => simp only [List.map_cons, List.sum_cons, ih]

/-! ### `to_value` -/

theorem stands_size {x : Ser} {v : Value Unit} (h : StandsFor x v) : v.size = x.size ∧ v.nameSize = x.nameSize := by
  induction h with
  | bool | char | str | none | unit | unitStruct => exact ⟨rfl, rfl⟩
  | unitVariant n => exact ⟨rfl, rfl⟩
  | num h => cases h <;> exact ⟨rfl, rfl⟩
  | bytes h => obtain ⟨a, b⟩ := byteList_size h; simp [Value.size, Value.nameSize, Ser.size, Ser.nameSize, a, b]
  | some h ih => simp [Value.size, Value.nameSize, Ser.size, Ser.nameSize, valuesSize, valuesNameSize, ih]
  | newtypeStruct h ih => simp [Value.size, Value.nameSize, Ser.size, Ser.nameSize, valuesSize, valuesNameSize, ih]
  | newtypeVariant h ih => simp [Value.size, Value.nameSize, Ser.size, Ser.nameSize, valuesSize, valuesNameSize, ih]
  | seq len sub ih | tuple len sub ih | tupleStruct len sub ih | tupleVariant len sub ih =>
    have a := pw_sum_eq Value.size Ser.size _ _ len (fun i x v hx hv => (ih i x v hx hv).1)
    have b := pw_sum_eq Value.nameSize Ser.nameSize _ _ len (fun i x v hx hv => (ih i x v hx hv).2)
    simp [Value.size, Value.nameSize, Ser.size, Ser.nameSize, valuesSize_sum, valuesNameSize_sum, sersSize_sum, sersNameSize_sum, a, b]
  | map len kv key name sub ihk ih =>
    have a := pw_sum_eq (fun p : Str × Value Unit => p.2.size) (fun p : Ser × Ser => p.2.size) _ _ len (fun i x v hx hv => (ih i x v hx hv).1)
    have b := pw_sum_eq (fun p : Str × Value Unit => p.1.length + p.2.nameSize) (fun p : Ser × Ser => p.1.keySize + p.2.nameSize) _ _ len (fun i x v hx hv => by
      have h1 := (ih i x v hx hv).2
      have h2 := key i x v hx hv
      have h3 := name i x v hx hv
      have : v.1.length = x.1.keySize := by
        generalize kv i = k at h2 h3
        generalize v.1 = s at h3
        generalize x.1 = y at h2
        cases h3 <;> cases h2 <;> first | rfl | (rename_i hh; cases hh)
      simp only [h1, this])
    simp [Value.size, Value.nameSize, Ser.size, Ser.nameSize, fieldsSize_sum, fieldsNameSize_sum, entriesSize_sum, entriesNameSize_sum, a, b]
  | struct names sub ih | structVariant names sub ih =>
    obtain ⟨len, hn⟩ := names_getElem names
    have a := pw_sum_eq (fun p : Str × Value Unit => p.2.size) (fun p : Str × Ser => p.2.size) _ _ len (fun i x v hx hv => (ih i x v hx hv).1)
    have b := pw_sum_eq (fun p : Str × Value Unit => p.1.length + p.2.nameSize) (fun p : Str × Ser => p.1.length + p.2.nameSize) _ _ len (fun i x v hx hv => by
      simp only [(ih i x v hx hv).2, hn i x v hx hv])
    simp [Value.size, Value.nameSize, Ser.size, Ser.nameSize, fieldsSize_sum, fieldsNameSize_sum, serFieldsSize_sum, serFieldsNameSize_sum, a, b]

theorem deep_parts {x : Ser} {v : Value Unit} (hb : ∀ b bs, x ≠ .bytes (b :: bs)) (len : x.parts.length = v.children.length)
    (sub : ∀ (i : Nat) (y : Ser) (w : Value Unit), x.parts[i]? = some y → v.children[i]? = some w → ∀ n, Deep w n ↔ SerDeep y n) (n : Nat) : Deep v n ↔ SerDeep x n := by
  constructor
  · intro h
    cases h with
    | here => exact .here
    | inside hw h =>
      obtain ⟨i, hi⟩ := List.getElem?_of_mem hw
      have hlt : i < x.parts.length := by rw [len]; exact (List.getElem?_eq_some_iff.1 hi).1
      have hy := List.getElem?_eq_getElem hlt
      exact .inside (List.getElem_mem hlt) ((sub i _ _ hy hi _).1 h)
  · intro h
    cases h with
    | here => exact .here
    | byte => exact absurd rfl (hb _ _)
    | inside hy h =>
      obtain ⟨i, hi⟩ := List.getElem?_of_mem hy
      have hlt : i < v.children.length := by rw [← len]; exact (List.getElem?_eq_some_iff.1 hi).1
      have hw := List.getElem?_eq_getElem hlt
      exact .inside (List.getElem_mem hlt) ((sub i _ _ hi hw _).2 h)

theorem snd_getElem {A B : Type} {es : List (A × B)} {i : Nat} {x : B} (h : (es.map (fun p => p.2))[i]? = some x) : ∃ a, es[i]? = some (a, x) := by
  simp only [List.getElem?_map, Option.map_eq_some_iff] at h
  obtain ⟨⟨a, y⟩, h1, rfl⟩ := h
  exact ⟨a, h1⟩

theorem stands_deep {x : Ser} {v : Value Unit} (h : StandsFor x v) : ∀ n, Deep v n ↔ SerDeep x n := by
  induction h with
  | bool | char | str | none | unit | unitStruct | unitVariant | num => exact deep_parts (by simp) rfl (by simp [Ser.parts])
  | @bytes bs vs h =>
    intro n
    obtain ⟨hl, hv⟩ := h
    constructor
    · intro h
      cases h with
      | here => exact .here
      | inside hw h =>
        simp only [Value.children] at hw
        obtain ⟨i, hi⟩ := List.getElem?_of_mem hw
        have hlt : i < bs.length := by rw [← hl]; exact (List.getElem?_eq_some_iff.1 hi).1
        obtain ⟨u, _, rfl⟩ := hv i _ _ (List.getElem?_eq_getElem hlt) hi
        have := deep_leaf h rfl
        subst this
        cases bs with
        | nil => simp at hlt
        | cons b bs => exact .byte
    · intro h
      cases h with
      | here => exact .here
      | @byte b bs =>
        cases vs with
        | nil => simp at hl
        | cons v vs => exact .inside (w := v) (by simp [Value.children]) .here
      | inside hy h => simp [Ser.parts] at hy
  | some h ih | newtypeStruct h ih | newtypeVariant h ih =>
    refine deep_parts (by simp) rfl (fun i y w hy hw => ?_)
    cases i with
    | zero => simp [Ser.parts, Value.children] at hy hw; subst hy hw; exact ih
    | succ i => simp [Ser.parts] at hy
  | seq len sub ih | tuple len sub ih | tupleStruct len sub ih | tupleVariant len sub ih => exact deep_parts (by simp) len ih
  | map len kv key name sub ihk ih =>
    refine deep_parts (by simp) (by simpa [Ser.parts, Value.children] using len) (fun i y w hy hw => ?_)
    obtain ⟨a, ha⟩ := snd_getElem hy
    obtain ⟨b, hb⟩ := snd_getElem hw
    exact ih i _ _ ha hb
  | struct names sub ih | structVariant names sub ih =>
    refine deep_parts (by simp) (by simpa [Ser.parts, Value.children] using (names_getElem names).1) (fun i y w hy hw => ?_)
    obtain ⟨a, ha⟩ := snd_getElem hy
    obtain ⟨b, hb⟩ := snd_getElem hw
    exact ih i _ _ ha hb

/-! ### Values -/

/-- Room for what a variant adds to the composite of its fields. -/
def Value.slack : Value T → Nat
  | .mk (.composite _) _ => 2
  | _ => 0

theorem flat_size {v : Value T} {w : Value Unit} (h : Flat v w) : v.size ≤ w.size ∧
    w.size + v.slack ≤ 33 * v.size + v.nameSize ∧ (¬ Has256 v → w.size + v.slack ≤ 3 * v.size + v.nameSize) := by
  induction h with
  | @prim p c h => cases p <;> simp_all [Value.slack, Value.size, Value.nameSize] <;> omega
  | @u256 b c vs h => have := b.len; simp [Value.slack, Value.size, Value.nameSize, byteList_size h, this]; exact Has256.u256
  | @i256 b c vs h => have := b.len; simp [Value.slack, Value.size, Value.nameSize, byteList_size h, this]; exact Has256.i256
  | bits h => simp [Value.slack, Value.size, Value.nameSize, fieldsSize, boolList_size h]; omega
  | @named fs gs c names sub ih =>
    obtain ⟨len, hn⟩ := names_getElem names
    have a := pw_sum_le (fun p : Str × Value T => p.2.size) (fun p : Str × Value Unit => p.2.size) _ _ len.symm (fun i x v hx hv => (ih i v x hv hx).1)
    have b := pw_sum_le (fun p : Str × Value Unit => p.2.size) (fun p : Str × Value T => 33 * p.2.size + (p.1.length + p.2.nameSize)) _ _ len (fun i x v hx hv => by
      have := (ih i x v hx hv).2.1; omega)
    rw [sum_add, sum_mul] at b
    simp only [Value.slack, Value.size, Value.nameSize, fieldsSize_sum, fieldsNameSize_sum]
    refine ⟨by omega, by omega, fun h256 => ?_⟩
    have b' := pw_sum_le (fun p : Str × Value Unit => p.2.size) (fun p : Str × Value T => 3 * p.2.size + (p.1.length + p.2.nameSize)) _ _ len (fun i x v hx hv => by
      have := (ih i x v hx hv).2.2 (fun h => h256 (.named (List.mem_of_getElem? hx) h)); omega)
    rw [sum_add, sum_mul] at b'
    omega
  | @unnamed vs ws c len sub ih =>
    have a := pw_sum_le Value.size Value.size _ _ len.symm (fun i x v hx hv => (ih i v x hv hx).1)
    have b := pw_sum_le Value.size (fun v : Value T => 33 * v.size + v.nameSize) _ _ len (fun i x v hx hv => by have := (ih i x v hx hv).2.1; omega)
    rw [sum_add, sum_mul] at b
    simp only [Value.slack, Value.size, Value.nameSize, valuesSize_sum, valuesNameSize_sum]
    refine ⟨by omega, by omega, fun h256 => ?_⟩
    have b' := pw_sum_le Value.size (fun v : Value T => 3 * v.size + v.nameSize) _ _ len (fun i x v hx hv => by have := (ih i x v hx hv).2.2 (fun h => h256 (.unnamed (List.mem_of_getElem? hx) h)); omega)
    rw [sum_add, sum_mul] at b'
    omega
  | @variant n f w c d h ih =>
    have e : (Value.mk (.variant (.mk n f)) c).size = (Value.mk (.composite f) d).size ∧ (Value.mk (.variant (.mk n f)) c).nameSize = n.length + (Value.mk (.composite f) d).nameSize := by
      cases f <;> simp [Value.slack, Value.size, Value.nameSize]
    have p : 1 ≤ (Value.mk (.composite f) d).size := by cases f <;> simp [Value.size]
    have q : ¬ Has256 (Value.mk (.variant (.mk n f)) c) → ¬ Has256 (Value.mk (.composite f) d) := fun hn h => hn (by
      cases h with
      | named hp h' => exact .vnamed hp h'
      | unnamed hp h' => exact .vunnamed hp h')
    obtain ⟨i1, i2, i3⟩ := ih
    have s1 : (Value.mk (.variant (.mk n f)) c).slack = 0 := rfl
    have s2 : (Value.mk (.composite f) d).slack = 2 := rfl
    have s3 : (Value.mk (.composite (.named [("name".toList, .mk (.primitive (.string n)) ()), ("values".toList, w)])) ()).size = 1 + (1 + n.length + w.size) := by
      simp [Value.size, fieldsSize]
    rw [s2] at i2 i3
    rw [s1, s3, e.1, e.2]
    refine ⟨by omega, by omega, fun hn => ?_⟩
    have := i3 (q hn)
    omega

theorem back_size {v : Value T} {w : Value Unit} (h : Back v w) : w.size ≤ 33 * v.size ∧ w.nameSize ≤ v.nameSize ∧ (¬ Has256 v → w.size ≤ v.size) := by
  induction h with
  | @prim p c h => cases p <;> simp_all [Value.size, Value.nameSize] <;> omega
  | @u256 b c vs h => have := b.len; simp [Value.size, Value.nameSize, byteList_size h, this]; exact Has256.u256
  | @i256 b c vs h => have := b.len; simp [Value.size, Value.nameSize, byteList_size h, this]; exact Has256.i256
  | bits => simp only [Value.size, Value.nameSize]; omega
  | @bitsLike x fs f bs c fields bools =>
    have h1 : bs.length < x.size := by
      have := boolList_size bools
      cases x with
      | mk d k => cases d with
        | composite g =>
          simp only [Value.fields?, Option.some.injEq] at fields; subst fields
          cases g <;> simp_all [Composite.vals, Value.size, fieldsSize_vals] <;> omega
        | variant g => cases g with
          | mk m g =>
            simp only [Value.fields?, Option.some.injEq] at fields; subst fields
            cases g <;> simp_all [Composite.vals, Value.size, fieldsSize_vals] <;> omega
        | _ => simp [Value.fields?] at fields
    simp only [Value.size, Value.nameSize, fieldsSize]
    refine ⟨by omega, by omega, fun _ => by omega⟩
  | @named fs gs c first names sub ih | @variantNamed n fs gs c names sub ih =>
    obtain ⟨len, hn⟩ := names_getElem names
    have a := pw_sum_le (fun p : Str × Value Unit => p.2.size) (fun p : Str × Value T => 33 * p.2.size) _ _ len (fun i x v hx hv => (ih i x v hx hv).1)
    have b := pw_sum_le (fun p : Str × Value Unit => p.1.length + p.2.nameSize) (fun p : Str × Value T => p.1.length + p.2.nameSize) _ _ len (fun i x v hx hv => by
      have := (ih i x v hx hv).2.1; rw [hn i x v hx hv]; omega)
    rw [sum_mul] at a
    simp only [Value.size, Value.nameSize, fieldsSize_sum, fieldsNameSize_sum]
    refine ⟨by omega, by omega, fun h256 => ?_⟩
    have a' := pw_sum_le (fun p : Str × Value Unit => p.2.size) (fun p : Str × Value T => p.2.size) _ _ len (fun i x v hx hv =>
      (ih i x v hx hv).2.2 (fun h => h256 (by first | exact .named (List.mem_of_getElem? hx) h | exact .vnamed (List.mem_of_getElem? hx) h)))
    omega
  | @unnamed vs ws c len sub ih | @variantUnnamed n vs ws c len sub ih =>
    have a := pw_sum_le Value.size (fun v : Value T => 33 * v.size) _ _ len (fun i x v hx hv => (ih i x v hx hv).1)
    have b := pw_sum_le Value.nameSize Value.nameSize _ _ len (fun i x v hx hv => (ih i x v hx hv).2.1)
    rw [sum_mul] at a
    simp only [Value.size, Value.nameSize, valuesSize_sum, valuesNameSize_sum]
    refine ⟨by omega, by omega, fun h256 => ?_⟩
    have a' := pw_sum_le Value.size Value.size _ _ len (fun i x v hx hv =>
      (ih i x v hx hv).2.2 (fun h => h256 (by first | exact .unnamed (List.mem_of_getElem? hx) h | exact .vunnamed (List.mem_of_getElem? hx) h)))
    omega

theorem flat_again {v : Value T} {w : Value Unit} (h : Flat v w) : Flat w w := by
  have hbytes : ∀ {bs : List UInt8} {vs : List (Value Unit)}, ByteList bs vs → ∀ (i : Nat) (x y : Value Unit), vs[i]? = some x → vs[i]? = some y → Flat x y := by
    intro bs vs h i x y hx hy
    have hlt : i < bs.length := by rw [← h.1]; exact (List.getElem?_eq_some_iff.1 hx).1
    obtain ⟨u, _, rfl⟩ := h.2 i _ x (List.getElem?_eq_getElem hlt) hx
    obtain rfl := Option.some.inj (hx.symm.trans hy)
    exact .prim (by simp)
  induction h with
  | prim h => exact .prim h
  | u256 h => exact .unnamed rfl (hbytes h)
  | i256 h => exact .unnamed rfl (hbytes h)
  | @bits b c vs h =>
    refine .named rfl (fun i x y hx hy => ?_)
    obtain rfl := Option.some.inj (hx.symm.trans hy)
    cases i with
    | succ i => simp at hx
    | zero =>
      simp only [List.getElem?_cons_zero, Option.some.injEq] at hx; subst hx
      refine .unnamed rfl (fun i x y hx hy => ?_)
      obtain rfl := Option.some.inj (hx.symm.trans hy)
      have hlt : i < b.length := by rw [← h.1]; exact (List.getElem?_eq_some_iff.1 hx).1
      obtain ⟨u, rfl⟩ := h.2 i x _ hx (List.getElem?_eq_getElem hlt)
      exact .prim (by simp)
  | @named fs gs c names sub ih =>
    refine .named rfl (fun i x y hx hy => ?_)
    obtain rfl := Option.some.inj (hx.symm.trans hy)
    have hlt : i < fs.length := by rw [(names_getElem names).1]; exact (List.getElem?_eq_some_iff.1 hx).1
    exact ih i _ _ (List.getElem?_eq_getElem hlt) hx
  | @unnamed vs ws c len sub ih =>
    refine .unnamed rfl (fun i x y hx hy => ?_)
    obtain rfl := Option.some.inj (hx.symm.trans hy)
    have hlt : i < vs.length := by rw [len]; exact (List.getElem?_eq_some_iff.1 hx).1
    exact ih i _ _ (List.getElem?_eq_getElem hlt) hx
  | variant h ih =>
    refine .named rfl (fun i x y hx hy => ?_)
    obtain rfl := Option.some.inj (hx.symm.trans hy)
    match i with
    | 0 => simp only [List.getElem?_cons_zero, Option.some.injEq] at hx; subst hx; exact .prim (by simp)
    | 1 => simp only [List.getElem?_cons_succ, List.getElem?_cons_zero, Option.some.injEq] at hx; subst hx; exact ih
    | i + 2 => simp at hx

theorem mem_pw {A B : Type} {xs : List A} {vs : List B} (len : xs.length = vs.length) {v : B} (hv : v ∈ vs) : ∃ (i : Nat) (x : A), xs[i]? = some x ∧ vs[i]? = some v := by
  obtain ⟨i, hi⟩ := List.getElem?_of_mem hv
  have hlt : i < xs.length := by rw [len]; exact (List.getElem?_eq_some_iff.1 hi).1
  exact ⟨i, _, List.getElem?_eq_getElem hlt, hi⟩

theorem byteList_deep {bs : List UInt8} {vs : List (Value Unit)} (h : ByteList bs vs) {n : Nat} (hd : Deep (.mk (.composite (.unnamed vs)) ()) n) : n ≤ 2 := by
  cases hd with
  | here => omega
  | inside hw hd =>
    obtain ⟨i, b, hb, hv⟩ := mem_pw h.1.symm (show _ ∈ vs from hw)
    obtain ⟨u, _, rfl⟩ := h.2 i b _ hb hv
    have := deep_leaf hd rfl; omega

theorem flat_deep {v : Value T} {w : Value Unit} (h : Flat v w) : ∀ n, Deep w n → ∃ m, Deep v m ∧ 2 * n + v.slack ≤ 4 * m + 2 := by
  induction h with
  | prim h => intro n hd; have := deep_leaf hd rfl; exact ⟨1, .here, by subst this; simp [Value.slack]⟩
  | u256 h => intro n hd; have := byteList_deep h hd; exact ⟨1, .here, by simp only [Value.slack]; omega⟩
  | i256 h => intro n hd; have := byteList_deep h hd; exact ⟨1, .here, by simp only [Value.slack]; omega⟩
  | bits h =>
    intro n hd
    refine ⟨1, .here, ?_⟩
    simp only [Value.slack]
    cases hd with
    | here => omega
    | inside hw hd =>
      simp only [Value.children, List.map_cons, List.map_nil, List.mem_singleton] at hw; subst hw
      cases hd with
      | here => omega
      | inside hw hd =>
        obtain ⟨i, b, hb, hv⟩ := mem_pw h.1.symm (show _ ∈ _ from hw)
        obtain ⟨u, rfl⟩ := h.2 i _ b hv hb
        have := deep_leaf hd rfl; omega
  | @named fs gs c names sub ih =>
    intro n hd
    cases hd with
    | here => exact ⟨1, .here, by simp [Value.slack]⟩
    | inside hw hd =>
      simp only [Value.children, List.mem_map] at hw
      obtain ⟨p, hp, rfl⟩ := hw
      obtain ⟨i, x, hx, hy⟩ := mem_pw (names_getElem names).1 hp
      obtain ⟨m, hm, hle⟩ := ih i x p hx hy _ hd
      exact ⟨m + 1, .inside (List.mem_map.2 ⟨x, List.mem_of_getElem? hx, rfl⟩) hm, by simp only [Value.slack]; omega⟩
  | @unnamed vs ws c len sub ih =>
    intro n hd
    cases hd with
    | here => exact ⟨1, .here, by simp [Value.slack]⟩
    | inside hw hd =>
      obtain ⟨i, x, hx, hy⟩ := mem_pw len (show _ ∈ ws from hw)
      obtain ⟨m, hm, hle⟩ := ih i x _ hx hy _ hd
      exact ⟨m + 1, .inside (List.mem_of_getElem? hx) hm, by simp only [Value.slack]; omega⟩
  | @variant k f w c d h ih =>
    intro n hd
    cases hd with
    | here => exact ⟨1, .here, by simp [Value.slack]⟩
    | inside hw hd =>
      simp only [Value.children, List.map_cons, List.map_nil, List.mem_cons, List.not_mem_nil, or_false] at hw
      rcases hw with rfl | rfl
      · have := deep_leaf hd rfl; subst this; exact ⟨1, .here, by simp [Value.slack]⟩
      · obtain ⟨m, hm, hle⟩ := ih _ hd
        refine ⟨m, ?_, by simp only [Value.slack] at hle ⊢; omega⟩
        cases hm with
        | here => exact .here
        | inside hw hm => exact .inside (by cases f <;> exact hw) hm

theorem back_deep {v : Value T} {w : Value Unit} (h : Back v w) : ∀ n, Deep w n → ∃ m, Deep v m ∧ n ≤ m + 1 ∧ (¬ Has256 v → n ≤ m) := by
  induction h with
  | prim h => intro n hd; have := deep_leaf hd rfl; exact ⟨1, .here, by omega, fun _ => by omega⟩
  | u256 h => intro n hd; have := byteList_deep h hd; exact ⟨1, .here, by omega, fun hn => absurd Has256.u256 hn⟩
  | i256 h => intro n hd; have := byteList_deep h hd; exact ⟨1, .here, by omega, fun hn => absurd Has256.i256 hn⟩
  | bits => intro n hd; have := deep_leaf hd rfl; exact ⟨1, .here, by omega, fun _ => by omega⟩
  | bitsLike => intro n hd; have := deep_leaf hd rfl; exact ⟨1, .here, by omega, fun _ => by omega⟩
  | @named fs gs c first names sub ih | @variantNamed k fs gs c names sub ih =>
    intro n hd
    cases hd with
    | here => exact ⟨1, .here, by omega, fun _ => by omega⟩
    | inside hw hd =>
      simp only [Value.children, List.mem_map] at hw
      obtain ⟨p, hp, rfl⟩ := hw
      obtain ⟨i, x, hx, hy⟩ := mem_pw (names_getElem names).1 hp
      obtain ⟨m, hm, hle, hn⟩ := ih i x p hx hy _ hd
      refine ⟨m + 1, .inside (List.mem_map.2 ⟨x, List.mem_of_getElem? hx, rfl⟩) hm, by omega, fun h256 => ?_⟩
      have := hn (fun h => h256 (by first | exact .named (List.mem_of_getElem? hx) h | exact .vnamed (List.mem_of_getElem? hx) h))
      omega
  | @unnamed vs ws c len sub ih | @variantUnnamed k vs ws c len sub ih =>
    intro n hd
    cases hd with
    | here => exact ⟨1, .here, by omega, fun _ => by omega⟩
    | inside hw hd =>
      obtain ⟨i, x, hx, hy⟩ := mem_pw len (show _ ∈ ws from hw)
      obtain ⟨m, hm, hle, hn⟩ := ih i x _ hx hy _ hd
      refine ⟨m + 1, .inside (List.mem_of_getElem? hx) hm, by omega, fun h256 => ?_⟩
      have := hn (fun h => h256 (by first | exact .unnamed (List.mem_of_getElem? hx) h | exact .vunnamed (List.mem_of_getElem? hx) h))
      omega

/-! ### Documents -/

theorem utf8_length_le (s : Str) : s.length ≤ (utf8Bytes s).length := by
  induction s with
  | nil => simp
  | cons c s ih =>
    have : 1 ≤ (String.utf8EncodeChar c).length := by rw [String.length_utf8EncodeChar]; exact Char.utf8Size_pos c
    simp only [utf8Bytes, List.flatMap_cons, List.length_append, List.length_cons] at *
    omega

theorem docName_size {x : Doc} {n : Str} (h : DocName x n) : n.length ≤ x.keySize := by
  cases h with
  | str => exact Nat.le_refl _
  | char => exact Nat.le_refl _
  | bytes h => subst h; exact utf8_length_le n

mutual
theorem docValue_size {strict : Bool} {x : Doc} {v : Value Unit} : DocValue strict x v → v.size ≤ x.size ∧ v.nameSize ≤ x.nameSize
  | .bool _ => ⟨Nat.le_refl _, Nat.le_refl _⟩
  | .char _ => ⟨Nat.le_refl _, Nat.le_refl _⟩
  | .str _ => ⟨Nat.le_refl _, Nat.le_refl _⟩
  | .num h => by cases h <;> exact ⟨Nat.le_refl _, Nat.le_refl _⟩
  | .bytes h => by simp [Value.size, Value.nameSize, Doc.size, Doc.nameSize, byteList_size h]
  | .unit => ⟨Nat.le_refl _, Nat.le_refl _⟩
  | .none => ⟨Nat.le_refl _, Nat.le_refl _⟩
  | .some h => by have := docValue_size h; simpa [Value.size, Value.nameSize, Doc.size, Doc.nameSize, valuesSize, valuesNameSize] using this
  | .newtype h => by have := docValue_size h; simp only [Doc.size, Doc.nameSize]; omega
  | .seq len sub => by
    have a := pw_sum_le Value.size Doc.size _ _ len (fun i x v hx hv => (docValue_size (sub i x v hx hv)).1)
    have b := pw_sum_le Value.nameSize Doc.nameSize _ _ len (fun i x v hx hv => (docValue_size (sub i x v hx hv)).2)
    simp only [Value.size, Value.nameSize, Doc.size, Doc.nameSize, valuesSize_sum, valuesNameSize_sum, docsSize_sum, docsNameSize_sum]; omega
  | .map bits len key sub => by
    have a := pw_sum_le (fun p : Str × Value Unit => p.2.size) (fun p : Doc × Doc => p.2.size) _ _ len (fun i x v hx hv => (docValue_size (sub i x v hx hv)).1)
    have b := pw_sum_le (fun p : Str × Value Unit => p.1.length + p.2.nameSize) (fun p : Doc × Doc => p.1.keySize + p.2.nameSize) _ _ len (fun i x v hx hv => by
      have := (docValue_size (sub i x v hx hv)).2; have := docName_size (key i x v hx hv); omega)
    simp only [Value.size, Value.nameSize, Doc.size, Doc.nameSize, fieldsSize_sum, fieldsNameSize_sum, docEntriesSize_sum, docEntriesNameSize_sum]; omega
  | @DocValue.bitMap _ k x es bs key h rest => by
    unfold DocBools at h; subst h
    have : docsSize (bs.map .bool) = bs.length := by
      clear rest key; induction bs with
      | nil => rfl
      | cons b bs ih => simp only [List.map_cons, docsSize, Doc.size, ih, List.length_cons]; omega
    simp only [Value.size, Value.nameSize, Doc.size, docEntriesSize]; omega
  | .enum name h => by
    rename_i c
    have h1 := docName_size name
    have h2 := docComposite_size h ()
    cases c <;> simp only [Value.size, Value.nameSize, Doc.size, Doc.nameSize] at h2 ⊢ <;> omega
theorem docComposite_size {strict : Bool} {x : Doc} {c : Composite Unit} : DocComposite strict x c → ∀ k, (Value.mk (.composite c) k).size ≤ x.size ∧ (Value.mk (.composite c) k).nameSize ≤ x.nameSize
  | .bytes h => by simp [Value.size, Value.nameSize, Doc.size, Doc.nameSize, byteList_size h]
  | .unit => fun _ => ⟨Nat.le_refl _, Nat.le_refl _⟩
  | .newtype h => fun k => by have := docComposite_size h k; simp only [Doc.size, Doc.nameSize]; omega
  | .seq len sub => fun k => by
    have a := pw_sum_le Value.size Doc.size _ _ len (fun i x v hx hv => (docValue_size (sub i x v hx hv)).1)
    have b := pw_sum_le Value.nameSize Doc.nameSize _ _ len (fun i x v hx hv => (docValue_size (sub i x v hx hv)).2)
    simp only [Value.size, Value.nameSize, Doc.size, Doc.nameSize, valuesSize_sum, valuesNameSize_sum, docsSize_sum, docsNameSize_sum]; omega
  | .map len key sub => fun k => by
    have a := pw_sum_le (fun p : Str × Value Unit => p.2.size) (fun p : Doc × Doc => p.2.size) _ _ len (fun i x v hx hv => (docValue_size (sub i x v hx hv)).1)
    have b := pw_sum_le (fun p : Str × Value Unit => p.1.length + p.2.nameSize) (fun p : Doc × Doc => p.1.keySize + p.2.nameSize) _ _ len (fun i x v hx hv => by
      have := (docValue_size (sub i x v hx hv)).2; have := docName_size (key i x v hx hv); omega)
    simp only [Value.size, Value.nameSize, Doc.size, Doc.nameSize, fieldsSize_sum, fieldsNameSize_sum, docEntriesSize_sum, docEntriesNameSize_sum]; omega
end

end SV
