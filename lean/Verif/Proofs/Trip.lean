import Verif.Spec.Trip
import Verif.Proofs.Value
import Verif.Proofs.FormatGap
import Verif.Model.Encode
/-
Values that leave the program and come back.
-/
namespace SV

variable {T U Id : Type}

theorem mapPrimVals_map (g : Primitive → Primitive) (vs : List (Value T)) : mapPrimVals g vs = vs.map (Value.mapPrim g) := by
  induction vs with
  | nil => simp [mapPrimVals]
  | cons v vs ih => simp [mapPrimVals, ih]

theorem mapPrimFields_map (g : Primitive → Primitive) (fs : List (Str × Value T)) : mapPrimFields g fs = fs.map (fun p => (p.1, p.2.mapPrim g)) := by
  induction fs with
  | nil => simp [mapPrimFields]
  | cons v vs ih => obtain ⟨k, v⟩ := v; simp [mapPrimFields, ih]

theorem fmtPrimitive_unsign {W : Type} (b : Builder T W) (p : Primitive) : fmtPrimitive b (unsign p) = fmtPrimitive b p := by
  cases p <;> try rfl
  case i128 n =>
    unfold unsign
    simp only
    split
    · next h => simp only [fmtPrimitive, writeU128, writeI128, if_neg (Int.not_lt.2 h)]; congr 2; omega
    · rfl

/-- Without custom formatters the sign of the type of a number does not show. -/
theorem fmtValue_unsign {W : Type} (u : Uni) (b : Builder T W) (hb : b.customFormatters = []) (v : Value T) :
    fmtValue u b (v.mapPrim unsign) = fmtValue u b v := by
  induction v using Value.ind with
  | named fs c ih =>
    have key : ∀ k, fmtFields u b k (mapPrimFields unsign fs) = fmtFields u b k fs := by
      clear c
      induction fs with
      | nil => intro k; simp [mapPrimFields]
      | cons p fs ihs =>
        intro k
        obtain ⟨n, v⟩ := p
        rw [mapPrimFields, fmtFields, fmtFields, ih (n, v) (by simp), ihs (fun p hp => ih p (by simp [hp]))]
    have he : (mapPrimFields unsign fs).isEmpty = fs.isEmpty := by rw [mapPrimFields_map]; simp
    simp only [Value.mapPrim, ValueDef.mapPrim, Composite.mapPrim, fmtValue, hb, runFormatters, fmtValueDef, fmtComposite, key, he]
  | unnamed vs c ih =>
    have key : ∀ k, fmtVals u b k (mapPrimVals unsign vs) = fmtVals u b k vs := by
      clear c
      induction vs with
      | nil => intro k; simp [mapPrimVals]
      | cons v fs ihs =>
        intro k
        rw [mapPrimVals, fmtVals, fmtVals, ih v (by simp), ihs (fun p hp => ih p (by simp [hp]))]
    have he : (mapPrimVals unsign vs).isEmpty = vs.isEmpty := by rw [mapPrimVals_map]; simp
    simp only [Value.mapPrim, ValueDef.mapPrim, Composite.mapPrim, fmtValue, hb, runFormatters, fmtValueDef, fmtComposite, key, he]
  | vnamed n fs c ih =>
    have key : ∀ k, fmtFields u b k (mapPrimFields unsign fs) = fmtFields u b k fs := by
      clear c
      induction fs with
      | nil => intro k; simp [mapPrimFields]
      | cons p fs ihs =>
        intro k
        obtain ⟨n, v⟩ := p
        rw [mapPrimFields, fmtFields, fmtFields, ih (n, v) (by simp), ihs (fun p hp => ih p (by simp [hp]))]
    have he : (mapPrimFields unsign fs).isEmpty = fs.isEmpty := by rw [mapPrimFields_map]; simp
    simp only [Value.mapPrim, ValueDef.mapPrim, Composite.mapPrim, fmtValue, hb, runFormatters, fmtValueDef, fmtVariant, fmtComposite, key, he]
  | vunnamed n vs c ih =>
    have key : ∀ k, fmtVals u b k (mapPrimVals unsign vs) = fmtVals u b k vs := by
      clear c
      induction vs with
      | nil => intro k; simp [mapPrimVals]
      | cons v fs ihs =>
        intro k
        rw [mapPrimVals, fmtVals, fmtVals, ih v (by simp), ihs (fun p hp => ih p (by simp [hp]))]
    have he : (mapPrimVals unsign vs).isEmpty = vs.isEmpty := by rw [mapPrimVals_map]; simp
    simp only [Value.mapPrim, ValueDef.mapPrim, Composite.mapPrim, fmtValue, hb, runFormatters, fmtValueDef, fmtVariant, fmtComposite, key, he]
  | bits b' c => simp [Value.mapPrim, ValueDef.mapPrim]
  | prim p c => simp only [Value.mapPrim, ValueDef.mapPrim, fmtValue, hb, runFormatters, fmtValueDef, fmtPrimitive_unsign]

theorem toString_unsign (u : Uni) (b : Builder T Str) (hb : b.customFormatters = []) (v : Value T) : b.toString u (v.mapPrim unsign) = b.toString u v := by
  simp only [Builder.toString, Builder.write, fmtValue_unsign u b hb]

theorem primOk_unsign (p : Primitive) : PrimOk (unsign p) ↔ ∀ b, p ≠ .u256 b ∧ p ≠ .i256 b := by
  cases p
  case i128 n =>
    by_cases h : 0 ≤ n.val
    · simp [unsign, h, PrimOk]
    · simp only [unsign, h, dite_false, PrimOk]; simp; omega
  all_goals simp [unsign, PrimOk]

theorem printable_unsign (u : Uni) (v : Value T) : Printable u (v.mapPrim unsign) ↔ Textual u v := by
  induction v using Value.ind with
  | named fs c ih =>
    simp only [Value.mapPrim, ValueDef.mapPrim, Composite.mapPrim, mapPrimFields_map]
    constructor
    · intro h
      cases h with
      | named h => exact .named fun p hp => (ih p hp).1 (h (p.1, p.2.mapPrim unsign) (List.mem_map.2 ⟨p, hp, rfl⟩))
    · intro h
      cases h with
      | named h =>
        refine .named fun p hp => ?_
        obtain ⟨q, hq, rfl⟩ := List.mem_map.1 hp
        exact (ih q hq).2 (h q hq)
  | unnamed vs c ih =>
    simp only [Value.mapPrim, ValueDef.mapPrim, Composite.mapPrim, mapPrimVals_map]
    constructor
    · intro h
      cases h with
      | unnamed h => exact .unnamed fun p hp => (ih p hp).1 (h _ (List.mem_map.2 ⟨p, hp, rfl⟩))
    · intro h
      cases h with
      | unnamed h =>
        refine .unnamed fun p hp => ?_
        obtain ⟨q, hq, rfl⟩ := List.mem_map.1 hp
        exact (ih q hq).2 (h q hq)
  | vnamed n fs c ih =>
    simp only [Value.mapPrim, ValueDef.mapPrim, Composite.mapPrim, mapPrimFields_map]
    constructor
    · intro h
      cases h with
      | vnamed hn h => exact .vnamed hn fun p hp => (ih p hp).1 (h (p.1, p.2.mapPrim unsign) (List.mem_map.2 ⟨p, hp, rfl⟩))
    · intro h
      cases h with
      | vnamed hn h =>
        refine .vnamed hn fun p hp => ?_
        obtain ⟨q, hq, rfl⟩ := List.mem_map.1 hp
        exact (ih q hq).2 (h q hq)
  | vunnamed n vs c ih =>
    simp only [Value.mapPrim, ValueDef.mapPrim, Composite.mapPrim, mapPrimVals_map]
    constructor
    · intro h
      cases h with
      | vunnamed hn h => exact .vunnamed hn fun p hp => (ih p hp).1 (h _ (List.mem_map.2 ⟨p, hp, rfl⟩))
    · intro h
      cases h with
      | vunnamed hn h =>
        refine .vunnamed hn fun p hp => ?_
        obtain ⟨q, hq, rfl⟩ := List.mem_map.1 hp
        exact (ih q hq).2 (h q hq)
  | bits b c =>
    simp only [Value.mapPrim, ValueDef.mapPrim]
    exact ⟨fun _ => .bits, fun _ => .bits⟩
  | prim p c =>
    simp only [Value.mapPrim, ValueDef.mapPrim]
    constructor
    · intro h; cases h with | prim h => exact .prim ((primOk_unsign p).1 h)
    · intro h; cases h with | prim h => exact .prim ((primOk_unsign p).2 h)

theorem sameData_unsign (v : Value T) : SameData v (v.mapPrim unsign).removeContext := by
  have pair : ∀ (fs : List (Str × Value T)), (∀ p ∈ fs, SameData p.2 (p.2.mapPrim unsign).removeContext) → ∀ (i : Nat) (x : Str × Value T) (y : Str × Value Unit),
      fs[i]? = some x → ((fs.map fun p => (p.1, p.2.mapPrim unsign)).map fun p => (p.1, p.2.removeContext))[i]? = some y → SameData x.2 y.2 := by
    intro fs ih i x y hx hy
    rw [List.getElem?_map, List.getElem?_map, hx] at hy
    cases hy
    exact ih x (List.mem_of_getElem? hx)
  have one : ∀ (fs : List (Value T)), (∀ p ∈ fs, SameData p (p.mapPrim unsign).removeContext) → ∀ (i : Nat) (x : Value T) (y : Value Unit),
      fs[i]? = some x → ((fs.map fun p => p.mapPrim unsign).map fun p => p.removeContext)[i]? = some y → SameData x y := by
    intro fs ih i x y hx hy
    rw [List.getElem?_map, List.getElem?_map, hx] at hy
    cases hy
    exact ih x (List.mem_of_getElem? hx)
  induction v using Value.ind with
  | named fs c ih =>
    simp only [Value.mapPrim, ValueDef.mapPrim, Composite.mapPrim, mapPrimFields_map, removeContext_comp, Composite.bare]
    exact .named (by simp) (pair fs ih)
  | unnamed vs c ih =>
    simp only [Value.mapPrim, ValueDef.mapPrim, Composite.mapPrim, mapPrimVals_map, removeContext_comp, Composite.bare]
    exact .unnamed (by simp) (one vs ih)
  | vnamed n fs c ih =>
    simp only [Value.mapPrim, ValueDef.mapPrim, Composite.mapPrim, mapPrimFields_map, removeContext_variant, Composite.bare, Value.variant]
    exact .variant (.named (by simp) (pair fs ih))
  | vunnamed n vs c ih =>
    simp only [Value.mapPrim, ValueDef.mapPrim, Composite.mapPrim, mapPrimVals_map, removeContext_variant, Composite.bare, Value.variant]
    exact .variant (.unnamed (by simp) (one vs ih))
  | bits b c => exact .bits
  | prim p c =>
    have hp : ((Value.mk (.primitive p) c).mapPrim unsign).removeContext = .mk (.primitive (unsign p)) () := rfl
    rw [hp]
    cases p <;> try exact .prim
    case i128 n =>
      refine .number (n := n.val) rfl ?_
      unfold unsign
      simp only
      split
      · next h => simp only [Value.number?]; congr 1; omega
      · rfl

/-! ### Encoding sees only the data -/

theorem bitOf_number {v : Value T} {n : Int} (h : v.number? = some n) : bitOf v = if n = 0 ∨ n = 1 then some (decide (n = 1)) else none := by
  obtain ⟨d, c⟩ := v
  cases d with
  | primitive p =>
    cases p <;> simp [Value.number?] at h <;> subst h
    case u128 n =>
      have h1 : ((n.val : Int) = 0) = (n.val = 0) := by simp
      have h2 : ((n.val : Int) = 1) = (n.val = 1) := by apply propext; omega
      simp only [h1, h2]
      rfl
    case i128 n => rfl
  | _ => simp [Value.number?] at h

theorem encode_number (reg : Reg Id) (cc : Bool) {v : Value T} {n : Int} (h : v.number? = some n) : v.encode reg cc = encNum reg false n := by
  obtain ⟨d, c⟩ := v
  cases d with
  | primitive p =>
    cases p <;> simp [Value.number?] at h <;> subst h <;> rfl
  | _ => simp [Value.number?] at h

theorem SameData.bitOf {v : Value T} {w : Value U} (h : SameData v w) : SV.bitOf v = SV.bitOf w := by
  cases h with
  | number hv hw => rw [bitOf_number hv, bitOf_number hw]
  | prim => rfl
  | bits => rfl
  | named => rfl
  | unnamed => rfl
  | variant => rfl

/-- Encoding depends on the data alone: same bytes, same errors. -/
theorem SameData.encode (reg : Reg Id) (cc : Bool) {v : Value T} {w : Value U} (h : SameData v w) :
    v.encode reg cc = w.encode reg cc ∧ ∀ f g, v.value = .composite f → w.value = .composite g → f.encChildren reg cc = g.encChildren reg cc := by
  induction h with
  | @number v w n hv hw =>
    refine ⟨by rw [encode_number reg cc hv, encode_number reg cc hw], fun f g h => ?_⟩
    obtain ⟨d, c⟩ := v
    simp only [Value.value] at h
    subst h
    simp [Value.number?] at hv
  | prim => exact ⟨rfl, fun _ _ h => by cases h⟩
  | bits => exact ⟨rfl, fun _ _ h => by cases h⟩
  | @named fs gs c d names sub ih =>
    have key : encNamed reg cc fs = encNamed reg cc gs := by
      clear c d
      induction fs generalizing gs with
      | nil => cases gs with
        | nil => rfl
        | cons => simp at names
      | cons p fs ihs => cases gs with
        | nil => simp at names
        | cons q gs =>
          obtain ⟨k, v⟩ := p
          obtain ⟨l, w⟩ := q
          simp only [List.map_cons, List.cons.injEq] at names
          obtain ⟨rfl, names⟩ := names
          rw [encNamed, encNamed, (ih 0 _ _ rfl rfl).1, (sub 0 (k, v) (k, w) rfl rfl).bitOf,
            ihs names (fun i x y hx hy => sub (i + 1) x y hx hy) (fun i x y hx hy => ih (i + 1) x y hx hy)]
    refine ⟨?_, ?_⟩
    · simp only [Value.encode, ValueDef.encode, Composite.encChildren, key]
    · rintro f g h1 h2
      cases h1; cases h2
      simp only [Composite.encChildren, key]
  | @unnamed vs ws c d len sub ih =>
    have key : encUnnamed reg cc vs = encUnnamed reg cc ws := by
      clear c d
      induction vs generalizing ws with
      | nil => cases ws with
        | nil => rfl
        | cons => simp at len
      | cons p fs ihs => cases ws with
        | nil => simp at len
        | cons q gs =>
          rw [encUnnamed, encUnnamed, (ih 0 _ _ rfl rfl).1, (sub 0 p q rfl rfl).bitOf,
            ihs (by simpa using len) (fun i x y hx hy => sub (i + 1) x y hx hy) (fun i x y hx hy => ih (i + 1) x y hx hy)]
    refine ⟨?_, ?_⟩
    · simp only [Value.encode, ValueDef.encode, Composite.encChildren, key]
    · rintro f g h1 h2
      cases h1; cases h2
      simp only [Composite.encChildren, key]
  | @variant n f g c d h ih =>
    refine ⟨?_, fun _ _ h => by cases h⟩
    have := ih.2 f g rfl rfl
    simp only [Value.encode, ValueDef.encode, this]

theorem SameData.encodeAsFields (reg : Reg Id) (cc : Bool) {v : Value T} {w : Value U} (h : SameData v w) (fs : List (Field Id)) :
    v.encodeAsFields reg cc fs = w.encodeAsFields reg cc fs := by
  have hk := (h.encode reg cc).2
  have num : ∀ {X : Type} {v : Value X} {n : Int}, v.number? = some n → v.encodeAsFields reg cc fs = .fail .custom := by
    intro X v n h
    obtain ⟨d, c⟩ := v
    cases d with
    | primitive p => rfl
    | _ => simp [Value.number?] at h
  cases h with
  | number hv hw => rw [num hv, num hw]
  | prim => rfl
  | bits => rfl
  | named names sub => simp only [Value.encodeAsFields, Value.value, Composite.encodeAsFields, hk _ _ rfl rfl]
  | unnamed len sub => simp only [Value.encodeAsFields, Value.value, Composite.encodeAsFields, hk _ _ rfl rfl]
  | variant h => rfl

/-! ### Formats -/

theorem FormatSafe.noBitName {v : Value T} (h : FormatSafe v) : NoBitName v := by
  induction h with
  | bool => exact .prim
  | string => exact .prim
  | @number v n h =>
    obtain ⟨d, c⟩ := v
    cases d with
    | primitive p => exact .prim
    | _ => simp [Value.number?] at h
  | bits => exact .bits
  | named first _ ih => exact .named first ih
  | unnamed _ ih => exact .unnamed ih

theorem Restores.sameData {v : Value T} {w : Value Unit} (h : Restores v w) (hs : FormatSafe v) : SameData v w := by
  induction h with
  | bool => exact .prim
  | string => exact .prim
  | char => exact .prim
  | charStr => cases hs with | number h => simp [Value.number?] at h
  | number hv hw => exact .number hv hw
  | u256 => cases hs with | number h => simp [Value.number?] at h
  | i256 => cases hs with | number h => simp [Value.number?] at h
  | bits => exact .bits
  | named names _ ih =>
    refine .named names fun i x y hx hy => ih i x y hx hy ?_
    cases hs with
    | named _ h => exact h x (List.mem_of_getElem? hx)
    | number h => simp [Value.number?] at h
  | unnamed len _ ih =>
    refine .unnamed len fun i x y hx hy => ih i x y hx hy ?_
    cases hs with
    | unnamed h => exact h x (List.mem_of_getElem? hx)
    | number h => simp [Value.number?] at h
  | variant => cases hs with | number h => simp [Value.number?] at h

end SV
