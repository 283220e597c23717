import Verif.Proofs.EncCalls
/-
Exactly how many calls the encoder makes for values in the shape of their type, and for values in wrappers that do not fit.
-/
namespace SV

variable {Id Γ : Type}

/-- Success with these bytes, and so many calls. -/
def OkC (a : EncC Id) (bs : List UInt8) (n : Nat) : Prop := ∀ out, a out = ((.ok (), out ++ bs), n)
/-- Failure, and so many calls. -/
def FailC (a : EncC Id) (n : Nat) : Prop := ∀ out, ∃ e o, a out = ((.error e, o), n)

theorem okC_leaf {a : EncM Id} {bs : List UInt8} (h : Okay a bs) : OkC (.leaf a) bs 0 := fun out => by rw [EncC.leaf, h out]
theorem failC_leaf {a : EncM Id} (h : Fails a) : FailC (.leaf a) 0 := fun out => by
  obtain ⟨e, o, h⟩ := h out
  exact ⟨e, o, by rw [EncC.leaf, h]⟩

theorem okC_seq {a b : EncC Id} {p q : List UInt8} {n m : Nat} (ha : OkC a p n) (hb : OkC b q m) : OkC (.seq a b) (p ++ q) (n + m) := by
  intro out
  unfold EncC.seq
  rw [ha out]
  dsimp only
  rw [hb]
  simp

theorem failC_seq {a b : EncC Id} {p : List UInt8} {n m : Nat} (ha : OkC a p n) (hb : FailC b m) : FailC (.seq a b) (n + m) := by
  intro out
  unfold EncC.seq
  rw [ha out]
  dsimp only
  obtain ⟨e, o, h⟩ := hb (out ++ p)
  rw [h]
  exact ⟨e, o, rfl⟩

theorem failC_seq_left {a b : EncC Id} {n : Nat} (ha : FailC a n) : FailC (.seq a b) n := by
  intro out
  unfold EncC.seq
  obtain ⟨e, o, h⟩ := ha out
  rw [h]
  exact ⟨e, o, rfl⟩

theorem okC_mapErr {f : EErr Id → EErr Id} {a : EncC Id} {p : List UInt8} {n : Nat} (ha : OkC a p n) : OkC (.mapErr f a) p n := by
  intro out
  unfold EncC.mapErr
  rw [ha out]

theorem failC_mapErr {f : EErr Id → EErr Id} {a : EncC Id} {n : Nat} (ha : FailC a n) : FailC (.mapErr f a) n := by
  intro out
  unfold EncC.mapErr
  obtain ⟨e, o, h⟩ := ha out
  rw [h]
  exact ⟨_, o, rfl⟩

theorem okC_do {reg : Reg Id} {cs : List (CChild Id)} {t : Id} {bs : List UInt8} {n : Nat} (h : OkC (doEncodeCompositeC reg cs t) bs n) :
    OkC (encCompositeC reg cs t) bs n := by
  intro out
  unfold encCompositeC
  rw [h []]
  simp

theorem okC_last {reg : Reg Id} {c : CChild Id} {t : Id} {bs : List UInt8} {n m : Nat} (hs : ∀ u, ¬ SingleEntry reg t u)
    (h : FailC (doEncodeCompositeC reg [c] t) n) (hc : OkC (c.enc t) bs m) : OkC (encCompositeC reg [c] t) bs (n + m) := by
  intro out
  obtain ⟨e, o, h⟩ := h []
  unfold encCompositeC encLastC
  rw [h, findSingle_done hs]
  dsimp only
  rw [hc []]
  simp

theorem failC_last {reg : Reg Id} {c : CChild Id} {t : Id} {n m : Nat} (hs : ∀ u, ¬ SingleEntry reg t u)
    (h : FailC (doEncodeCompositeC reg [c] t) n) (hc : FailC (c.enc t) m) : FailC (encCompositeC reg [c] t) (n + m) := by
  intro out
  obtain ⟨e, o, h⟩ := h []
  obtain ⟨e', o', hc⟩ := hc []
  unfold encCompositeC encLastC
  rw [h, findSingle_done hs]
  dsimp only
  rw [hc]
  exact ⟨_, _, rfl⟩

theorem okC_tick {d : ValueDef Γ} {reg : Reg Id} {cc : Bool} {x : Γ} {t : Id} {bs : List UInt8} {n : Nat} (h : OkC (d.encodeC reg cc t) bs n) :
    OkC ((Value.mk d x).encodeC reg cc t) bs (1 + n) := by
  intro out
  rw [Value.encodeC]
  dsimp only
  rw [h out]

theorem failC_tick {d : ValueDef Γ} {reg : Reg Id} {cc : Bool} {x : Γ} {t : Id} {n : Nat} (h : FailC (d.encodeC reg cc t) n) :
    FailC ((Value.mk d x).encodeC reg cc t) (1 + n) := by
  intro out
  obtain ⟨e, o, h⟩ := h out
  rw [Value.encodeC]
  dsimp only
  rw [h]
  exact ⟨_, _, rfl⟩

/-! ### Children -/

/-- A value without a name. -/
def childC (reg : Reg Id) (cc : Bool) (v : Value Γ) : CChild Id := ⟨none, v.encodeC reg cc, bitOf v⟩
/-- A value with a name. -/
def childNamedC (reg : Reg Id) (cc : Bool) (p : Str × Value Γ) : CChild Id := ⟨some p.1, p.2.encodeC reg cc, bitOf p.2⟩

theorem encUnnamedC_eq (reg : Reg Id) (cc : Bool) (vs : List (Value Γ)) : encUnnamedC reg cc vs = vs.map (childC reg cc) := by
  induction vs with
  | nil => rfl
  | cons v vs ih => rw [encUnnamedC, ih]; rfl

theorem encNamedC_eq (reg : Reg Id) (cc : Bool) (vs : List (Str × Value Γ)) : encNamedC reg cc vs = vs.map (childNamedC reg cc) := by
  induction vs with
  | nil => rfl
  | cons v vs ih => rw [encNamedC, ih]; rfl

theorem okC_items {reg : Reg Id} {cc : Bool} {R : Id → Value Γ → List UInt8 → Prop} (hR : ∀ t v bs, R t v bs → OkC (v.encodeC reg cc t) bs v.count) {u : Id} {nm : Bool} :
    ∀ {vs ts bs} k, All3 R ts vs bs → (∀ t ∈ ts, t = u) → OkC (encItemsC u nm k (vs.map (childC reg cc))) bs (valuesCount vs) := by
  intro vs ts bs k h
  induction h generalizing k with
  | nil => intro _; exact okC_leaf okay_done
  | cons h1 _ ih =>
    intro hu
    have := hu _ (List.mem_cons_self ..)
    subst this
    rw [valuesCount]
    exact okC_seq (okC_mapErr (hR _ _ _ h1)) (ih (k + 1) (fun t ht => hu t (by simp [ht])))

theorem okC_byOrder {reg : Reg Id} {cc : Bool} {R : Id → Value Γ → List UInt8 → Prop} (hR : ∀ t v bs, R t v bs → OkC (v.encodeC reg cc t) bs v.count) :
    ∀ {fs : List (Field Id)} {vs bs} k, All3 R (fs.map (fun f => f.id)) vs bs → OkC (encByOrderC k (vs.map (childC reg cc)) fs) bs (valuesCount vs) := by
  intro fs
  induction fs with
  | nil => intro vs bs k h; cases h; exact okC_leaf okay_done
  | cons f fs ih =>
    intro vs bs k h
    cases h with
    | cons h1 h2 => rw [valuesCount]; exact okC_seq (okC_mapErr (hR _ _ _ h1)) (ih (k + 1) h2)

theorem find_namedC {reg : Reg Id} {cc : Bool} {names : List Str} {vs : List (Value Γ)} (h : names.Nodup) {n : Str} {v : Value Γ} (hm : (n, v) ∈ names.zip vs) :
    ((names.zip vs).map (childNamedC reg cc)).reverse.find? (fun c => c.name.getD [] == n) = some (childNamedC reg cc (n, v)) := by
  refine find?_unique (by simpa using ⟨n, v, hm, rfl⟩) (by simp [childNamedC]) ?_
  intro b hb hp
  obtain ⟨⟨m, w⟩, hm', rfl⟩ := List.mem_map.1 (List.mem_reverse.1 hb)
  have : m = n := by simpa [childNamedC] using hp
  subst this
  rw [zip_nodup_unique h hm' hm]

theorem okC_byName {reg : Reg Id} {cc : Bool} {R : Id → Value Γ → List UInt8 → Prop} (hR : ∀ t v bs, R t v bs → OkC (v.encodeC reg cc t) bs v.count)
    {names : List Str} {all : List (Value Γ)} (hn : names.Nodup) : ∀ {fs : List (Field Id)} {ns : List Str} {vs bs}, fs.map (fun f => f.name) = ns.map some →
      (∀ p ∈ ns.zip vs, p ∈ names.zip all) →
      All3 R (fs.map (fun f => f.id)) vs bs → OkC (encByNameC ((names.zip all).map (childNamedC reg cc)) fs) bs (valuesCount vs) := by
  intro fs
  induction fs with
  | nil => intro ns vs bs _ _ h; cases h; exact okC_leaf okay_done
  | cons f fs ih =>
    intro ns vs bs hns hm h
    cases ns with
    | nil => cases hns
    | cons n ns =>
      simp only [List.map_cons, List.cons.injEq] at hns
      cases h with
      | @cons _ _ v vs b b' h1 h2 =>
        unfold encByNameC
        rw [hns.1, Option.getD_some, find_namedC hn (hm (n, v) (by simp)), valuesCount]
        exact okC_seq (okC_mapErr (hR _ _ _ h1)) (ih hns.2 (fun p hp => hm p (by simp [hp])) h2)

/-- The number of values in the values of a composite. -/
def Composite.countIn : Composite Γ → Nat
  | .named fs => fieldsCount fs
  | .unnamed vs => valuesCount vs

theorem fieldsCount_zip : ∀ {names : List Str} {vs : List (Value Γ)}, names.length = vs.length → fieldsCount (names.zip vs) = valuesCount vs
  | [], [], _ => rfl
  | [], _ :: _, h => by cases h
  | _ :: _, [], h => by cases h
  | n :: names, v :: vs, h => by rw [List.zip_cons_cons, fieldsCount, valuesCount, fieldsCount_zip (by simpa using h)]

theorem countIn_shape {fs : List (Field Id)} {vs : List (Value Γ)} {cs : Composite Γ} (hs : HasShape fs vs cs) (hl : vs.length = fs.length) : cs.countIn = valuesCount vs := by
  cases hs with
  | @named names h1 h2 =>
    have hnl : names.length = fs.length := by simpa using (congrArg List.length h2).symm
    exact fieldsCount_zip (by omega)
  | unnamed h1 => rfl

theorem okC_fieldsTo {reg : Reg Id} {cc : Bool} {R : Id → Value Γ → List UInt8 → Prop} (hR : ∀ t v bs, R t v bs → OkC (v.encodeC reg cc t) bs v.count)
    {fs : List (Field Id)} {vs : List (Value Γ)} {cs : Composite Γ} {bs : List UInt8} (hs : HasShape fs vs cs) (hf : FieldsOk fs)
    (h : All3 R (fs.map (fun f => f.id)) vs bs) : OkC (encFieldsToC (cs.encChildrenC reg cc) fs) bs cs.countIn := by
  have hl := h.length
  rw [List.length_map] at hl
  rw [countIn_shape hs hl]
  cases hs with
  | @named names h1 h2 =>
    have hnl : names.length = fs.length := by simpa using (congrArg List.length h2).symm
    rw [Composite.encChildrenC, encNamedC_eq]
    unfold encFieldsToC
    rw [if_pos]
    · exact okC_byName hR (hf names h2) h2 (fun p hp => hp) h
    · rw [Bool.and_eq_true]
      constructor
      · cases fs with
        | nil => exact (h1 rfl).elim
        | cons f fs =>
          cases names with
          | nil => cases h2
          | cons n names => simp only [List.map_cons, List.cons.injEq] at h2; simp [h2.1]
      · cases fs with
        | nil => exact (h1 rfl).elim
        | cons f fs =>
          cases names with
          | nil => cases h2
          | cons n names =>
            cases vs with
            | nil => simp at hl
            | cons v vs => simp [childNamedC]
  | unnamed h1 =>
    rw [Composite.encChildrenC, encUnnamedC_eq]
    unfold encFieldsToC
    have : (vs.map (childC reg cc)).any (fun c => c.name.isSome) = false := by
      rw [List.any_eq_false]
      intro c hc
      obtain ⟨v, -, rfl⟩ := List.mem_map.1 hc
      simp [childC]
    rw [this, Bool.and_false, if_neg (by simp), if_neg (by simp [hl])]
    exact okC_byOrder hR 0 h

theorem okC_composite {reg : Reg Id} {cc : Bool} {c : Composite Γ} {x : Γ} {t : Id} {bs : List UInt8} (h : OkC (encCompositeC reg (c.encChildrenC reg cc) t) bs c.countIn) :
    OkC ((Value.mk (.composite c) x).encodeC reg cc t) bs (Value.mk (.composite c) x).count := by
  have : (Value.mk (.composite c) x).count = 1 + c.countIn := by cases c <;> rw [Value.count] <;> rfl
  rw [this]
  refine okC_tick ?_
  rw [ValueDef.encodeC]
  exact h

theorem okC_variant {reg : Reg Id} {cc : Bool} {c : Composite Γ} {s : Str} {x : Γ} {t : Id} {bs : List UInt8}
    (h : OkC (encVariantC reg s (c.encChildrenC reg cc) t) bs c.countIn) :
    OkC ((Value.mk (.variant (.mk s c)) x).encodeC reg cc t) bs (Value.mk (.variant (.mk s c)) x).count := by
  have : (Value.mk (.variant (.mk s c)) x).count = 1 + c.countIn := by cases c <;> rw [Value.count] <;> rfl
  rw [this]
  refine okC_tick ?_
  rw [ValueDef.encodeC]
  exact h

theorem okC_prim {reg : Reg Id} {cc : Bool} {p : Primitive} {x : Γ} {t : Id} {bs : List UInt8} (h : Okay (encPrimitive reg cc p t) bs) :
    OkC ((Value.mk (.primitive p) x).encodeC reg cc t) bs (Value.mk (.primitive p) x).count := by
  rw [Value.count]
  refine okC_tick (n := 0) ?_
  rw [ValueDef.encodeC]
  exact okC_leaf h

theorem okC_bits {reg : Reg Id} {cc : Bool} {p : List Bool} {x : Γ} {t : Id} {bs : List UInt8} (h : Okay (encBits reg p t) bs) :
    OkC ((Value.mk (.bitSequence p) x).encodeC reg cc t) bs (Value.mk (.bitSequence p) x).count := by
  rw [Value.count]
  refine okC_tick (n := 0) ?_
  rw [ValueDef.encodeC]
  exact okC_leaf h

/-! ### One value without a name -/

theorem asTypeC_one {reg : Reg Id} {c : CChild Id} (hc : c.name = none) {t : Id} {d : TypeDef Id} (h : reg.resolve (skip reg t) = some d) :
    encCompositeAsTypeC reg [c] t = c.enc (skip reg t) := by
  unfold encCompositeAsTypeC
  rw [h]
  cases d <;> simp [hc]

theorem doC_simple {reg : Reg Id} {c : CChild Id} {t : Id} {d : TypeDef Id} (h : reg.resolve t = some d) (hd : IsSimple d) :
    doEncodeCompositeC reg [c] t = c.enc t := by
  unfold doEncodeCompositeC
  rw [h]
  cases d <;> first | rfl | exact hd.elim

theorem doC_wraps {reg : Reg Id} {c : CChild Id} (hc : c.name = none) {t u : Id} {d : TypeDef Id} (hw : Wraps reg t u) (h : reg.resolve (skip reg t) = some d) :
    doEncodeCompositeC reg [c] t = c.enc (skip reg t) := by
  rw [← asTypeC_one hc h]
  unfold doEncodeCompositeC
  cases hw with
  | composite h => rw [h]
  | tuple h => rw [h]

/-- What is shown about a value `v` with the bytes `bs` at the type `t`. -/
structure RK (reg : Reg Id) (cc : Bool) (t : Id) (v : Value Γ) (bs : List UInt8) : Prop where
  okay : OkC (v.encodeC reg cc t) bs v.count
  skip : (∃ p, Wraps reg p t ∧ NoWrappedList reg p) → OkC (v.encodeC reg cc (skip reg t)) bs v.count
  bit : ∀ s o, reg.resolve (SV.skip reg t) = some (.bitSequence s o) → bitOf v = none
  found : ∃ d, reg.resolve (SV.skip reg t) = some d

/-- Types that are no wrapper. -/
theorem RK.container {reg : Reg Id} {cc : Bool} {t : Id} {v : Value Γ} {bs : List UInt8} {d : TypeDef Id} (h : reg.resolve t = some d)
    (hs : ∀ u, ¬ Wraps reg t u) (ho : OkC (v.encodeC reg cc t) bs v.count)
    (hb : ∀ s o, d = .bitSequence s o → bitOf v = none) : RK reg cc t v bs := by
  have hk := skip_done hs
  refine ⟨ho, fun _ => by rw [hk]; exact ho, ?_, ⟨d, by rw [hk, h]⟩⟩
  intro s o he; rw [hk, h] at he; exact hb s o (by simpa using he)

theorem RK.wrapper {reg : Reg Id} {cc : Bool} {t u : Id} {v : Value Γ} {bs : List UInt8} {x : Γ} (hw : Wraps reg t u) (hp : NoWrappedList reg t)
    (ih : RK reg cc u v bs) : RK reg cc t (.mk (.composite (.unnamed [v])) x) bs := by
  have hsk := skip_step hw
  have hv := ih.skip ⟨t, hw, hp⟩
  obtain ⟨d, hd⟩ := ih.found
  have hcs : (Composite.unnamed [v]).encChildrenC reg cc = [childC reg cc v] := by rw [Composite.encChildrenC, encUnnamedC_eq]; rfl
  have hcount : (Composite.unnamed [v]).countIn = v.count := by simp [Composite.countIn, valuesCount]
  refine ⟨?_, ?_, fun _ _ _ => rfl, ⟨d, by rw [hsk, hd]⟩⟩
  · refine okC_composite ?_
    rw [hcs, hcount]
    refine okC_do ?_
    rw [doC_wraps rfl hw (by rw [hsk, hd]), hsk]
    exact hv
  · rintro ⟨p, hpt, hpp⟩
    rw [hsk]
    have hss := skip_done (skip_not_wraps reg u)
    have hno := fun e => hpp t u (SV.skip reg u) e hpt hw (skip_unwrapped reg u)
    refine okC_composite ?_
    rw [hcs, hcount]
    have last : (∀ w, ¬ SingleEntry reg (SV.skip reg u) w) → FailC (doEncodeCompositeC reg [childC reg cc v] (SV.skip reg u)) 0 →
        OkC (encCompositeC reg [childC reg cc v] (SV.skip reg u)) bs v.count := by
      intro h1 h2
      have := okC_last h1 h2 (show OkC ((childC reg cc v).enc (SV.skip reg u)) bs v.count from hv)
      simpa using this
    have hasT : doEncodeCompositeC reg [childC reg cc v] (SV.skip reg u) = (childC reg cc v).enc (SV.skip reg u) →
        OkC (encCompositeC reg [childC reg cc v] (SV.skip reg u)) bs v.count := by
      intro h
      refine okC_do ?_
      rw [h]; exact hv
    cases d with
    | composite fs =>
      refine hasT ?_
      unfold doEncodeCompositeC
      rw [hd]; simp only
      rw [asTypeC_one rfl (by rw [hss, hd]), hss]
    | tuple ts =>
      refine hasT ?_
      unfold doEncodeCompositeC
      rw [hd]; simp only
      rw [asTypeC_one rfl (by rw [hss, hd]), hss]
    | primitive p => exact hasT (doC_simple hd trivial)
    | compact p => exact hasT (doC_simple hd trivial)
    | variant p => exact hasT (doC_simple hd trivial)
    | sequence e => exact ((hno e).1 hd).elim
    | array e n =>
      have hn : n ≠ 1 := fun h => (hno e).2 (by rw [hd, h])
      refine last ?_ ?_
      · intro w h
        cases h with
        | composite h => rw [hd] at h; cases h
        | tuple h => rw [hd] at h; cases h
        | array h => rw [hd] at h; cases h; exact hn rfl
      · unfold doEncodeCompositeC
        rw [hd]; simp only
        rw [if_pos (by simpa using fun h => hn h.symm)]
        exact failC_leaf (fails_fail _)
    | bitSequence s o =>
      refine last ?_ ?_
      · intro w h
        cases h with
        | composite h => rw [hd] at h; cases h
        | tuple h => rw [hd] at h; cases h
        | array h => rw [hd] at h; cases h
      · unfold doEncodeCompositeC
        rw [hd]
        simp only [List.map_cons, List.map_nil, encBools, CChild.erase, childC, ih.bit s o hd]
        exact failC_leaf (fails_error _)

/-- What is shown about the items of a composite. -/
def RKc (reg : Reg Id) (cc : Bool) (c : Bool) (t : Id) (v : Value Γ) (bs : List UInt8) : Prop :=
  (c = false → RK reg cc t v bs) ∧
  (c = true → ∀ x w, reg.resolve x = some (.compact w) → (findSingle reg w).1 = (findSingle reg t).1 → OkC (v.encodeC reg cc x) bs v.count)

theorem okC_one {reg : Reg Id} {cc : Bool} {t : Id} {c : Composite Γ} {d : TypeDef Id} {v : Value Γ} {bs : List UInt8} {x : Γ} (h : reg.resolve t = some d) (hd : IsSimple d)
    (hc : c.vals = [v]) (hv : OkC (v.encodeC reg cc t) bs v.count) : OkC ((Value.mk (.composite c) x).encodeC reg cc t) bs (Value.mk (.composite c) x).count := by
  refine okC_composite ?_
  have : ∃ ch : CChild Id, c.encChildrenC reg cc = [ch] ∧ ch.enc = v.encodeC reg cc ∧ c.countIn = v.count := by
    cases c with
    | unnamed vs =>
      have hc : vs = [v] := hc
      subst hc
      exact ⟨_, by rw [Composite.encChildrenC, encUnnamedC_eq]; rfl, rfl, by simp [Composite.countIn, valuesCount]⟩
    | named fs =>
      obtain ⟨p, rfl, rfl⟩ : ∃ p, fs = [p] ∧ p.2 = v := by
        cases fs with
        | nil => cases hc
        | cons p fs =>
          cases fs with
          | nil => exact ⟨p, rfl, by simpa [Composite.vals] using hc⟩
          | cons q fs => simp [Composite.vals] at hc
      refine ⟨_, by rw [Composite.encChildrenC, encNamedC_eq]; rfl, rfl, ?_⟩
      obtain ⟨k, w⟩ := p
      simp [Composite.countIn, fieldsCount]
  obtain ⟨ch, h1, h2, h3⟩ := this
  rw [h1, h3]
  refine okC_do ?_
  rw [doC_simple h hd, h2]
  exact hv

/-- Both conditions on all types in a type. -/
def Fine (reg : Reg Id) (cc : Bool) (t : Id) : Prop := ∀ a, Reach reg t a → Plain reg cc a ∧ NoWrappedList reg a

theorem fine_ref {reg : Reg Id} {cc : Bool} {t u : Id} {d : TypeDef Id} (h : Fine reg cc t) (ht : reg.resolve t = some d) (hu : u ∈ d.refs) : Fine reg cc u := by
  intro w hw
  refine h w ?_
  clear h
  induction hw with
  | self => exact .step .self ht hu
  | step _ h1 h2 ih => exact .step ih h1 h2

theorem childrenC_length {reg : Reg Id} {cc : Bool} {fs : List (Field Id)} {vs : List (Value Γ)} {cs : Composite Γ} (h : HasShape fs vs cs) (hl : vs.length = fs.length) :
    (cs.encChildrenC reg cc).length = fs.length := by
  rw [← children_length (reg := reg) (cc := cc) h hl, ← erase_comp, List.length_map]

theorem rk_all (reg : Reg Id) (cc : Bool) (ctx : Id → Γ) {c t v bs} (h : Scale reg True .u256 ctx c t v bs) : Fine reg cc t → RKc reg cc c t v bs := by
  have toR : ∀ {ts vs bs}, All3 (RKc reg cc false) ts vs bs → All3 (fun t (v : Value Γ) bs => RK reg cc t v bs) ts vs bs :=
    fun h => h.imp (fun t v bs h => h.1 rfl)
  have leaf : ∀ {t : Id} {d : TypeDef Id}, reg.resolve t = some d → IsSimple d → (∀ u, ¬ Wraps reg t u) ∧ (findSingle reg t).1 = t ∧ ∀ s o, d ≠ .bitSequence s o := by
    intro t d h hd
    have hs := simple_not_single h hd
    exact ⟨not_wraps_of hs, by rw [findSingle_done hs], fun s o e => by rw [e] at hd; exact hd⟩
  refine Scale.rec (motive_1 := fun c t v bs _ => Fine reg cc t → RKc reg cc c t v bs)
    (motive_2 := fun c ts vs bs _ => (∀ t ∈ ts, Fine reg cc t) → All3 (RKc reg cc c) ts vs bs)
    ?_ ?_ ?_ ?_ ?_ ?_ ?_ ?_ ?_ ?_ ?_ ?_ ?_ ?_ ?_ ?_ ?_ h
  · intro t b ht he
    obtain ⟨h1, h2, h3⟩ := leaf ht trivial
    exact ⟨fun _ => RK.container ht h1 (okC_prim (okay_bool_iff.2 ⟨by rw [h2, ht], rfl⟩)) (fun s o h => (h3 s o h).elim), fun h => by cases h⟩
  · intro t ch bs ht hb he
    obtain ⟨h1, h2, h3⟩ := leaf ht trivial
    exact ⟨fun _ => RK.container ht h1 (okC_prim (okay_num_iff.2 (.char (by rw [h2, ht]) ((he t .self).1.char ht) hb))) (fun s o h => (h3 s o h).elim), fun h => by cases h⟩
  · intro t s p ht hp hl hl' he
    obtain ⟨h1, h2, h3⟩ := leaf ht trivial
    exact ⟨fun _ => RK.container ht h1 (okC_prim (okay_str_iff.2 ⟨by rw [h2, ht], by rw [(isCompact_iff (by omega)).1 hp]⟩)) (fun s o h => (h3 s o h).elim), fun h => by cases h⟩
  · intro t p k n bs ht hk hb he
    obtain ⟨h1, h2, h3⟩ := leaf ht trivial
    exact ⟨fun _ => RK.container ht h1 (okC_prim (okay_num_iff.2 (.uint (by rw [h2, ht]) hk hb))) (fun s o h => (h3 s o h).elim), fun h => by cases h⟩
  · intro t p k n bs ht hk hb he
    obtain ⟨h1, h2, h3⟩ := leaf ht trivial
    exact ⟨fun _ => RK.container ht h1 (okC_prim (okay_num_iff.2 (.int (by rw [h2, ht]) hk hb))) (fun s o h => (h3 s o h).elim), fun h => by cases h⟩
  · intro t b ht he; exact ((he t .self).1.no_u256 ht).elim
  · intro t b ht he; exact ((he t .self).1.no_i256 ht).elim
  · intro t u v bs ht _ ih he
    have ih := ih (fine_ref he ht (by simp [TypeDef.refs]))
    obtain ⟨h1, h2, h3⟩ := leaf ht trivial
    exact ⟨fun _ => RK.container ht h1 (ih.2 rfl t u ht rfl) (fun s o h => (h3 s o h).elim), fun h => by cases h⟩
  · intro t p k n bs ht hk hn hb he
    refine ⟨fun h => (by cases h), fun _ x w h1 h2 => ?_⟩
    refine okC_prim (okay_num_iff.2 (.compact (w := w) ?_ (findSingle_innermost reg w) (p := p) ?_ hk hn hb))
    · rw [(leaf h1 trivial).2.1, h1]
    · rw [h2, findSingle_done (simple_not_single ht trivial), ht]
  · -- sequence
    intro t u vs p bs ht hp hl hl' _ ih he
    have ih := toR (ih (fun w hw => by rw [List.eq_of_mem_replicate hw]; exact fine_ref he ht (by simp [TypeDef.refs])))
    have hns : ∀ w, ¬ SingleEntry reg t w := fun w h => by
      rcases single_length h with ⟨f, h, -⟩ | h | h <;> rw [ht] at h <;> cases h
    refine ⟨fun _ => RK.container ht (not_wraps_of hns) ?_ (fun _ _ h => by cases h), fun h => by cases h⟩
    refine okC_composite (okC_do ?_)
    rw [Composite.encChildrenC, encUnnamedC_eq, Composite.countIn]
    unfold doEncodeCompositeC
    rw [ht]; simp only [List.length_map]
    have := okC_seq (n := 0) (okC_leaf (a := EncM.write (compactEnc (vs.length % 2 ^ 32))) (bs := p) ?_)
      (okC_items (reg := reg) (cc := cc) (nm := true) (fun t v bs h => h.okay) 0 ih (fun w hw => List.eq_of_mem_replicate hw))
    · rwa [Nat.zero_add] at this
    · rw [okay_write_iff, Nat.mod_eq_of_lt (hl' trivial), (isCompact_iff (by omega)).1 hp]
  · -- array
    intro t u n vs bs ht _ ih he
    have ih := toR (ih (fun w hw => by rw [List.eq_of_mem_replicate hw]; exact fine_ref he ht (by simp [TypeDef.refs])))
    have hl := ih.length
    rw [List.length_replicate] at hl
    have hnw : ∀ w, ¬ Wraps reg t w := fun w h => by
      cases h with
      | composite h => rw [ht] at h; cases h
      | tuple h => rw [ht] at h; cases h
    refine ⟨fun _ => RK.container ht hnw ?_ (fun _ _ h => by cases h), fun h => by cases h⟩
    refine okC_composite (okC_do ?_)
    rw [Composite.encChildrenC, encUnnamedC_eq, Composite.countIn]
    unfold doEncodeCompositeC
    rw [ht]; simp only [List.length_map]
    rw [if_neg (by simp [hl])]
    exact okC_items (fun t v bs h => h.okay) 0 ih (fun w hw => List.eq_of_mem_replicate hw)
  · -- tuple
    intro c t ts vs bs ht hc _ ih he
    have ih := ih (fun w hw => fine_ref he ht hw)
    by_cases h1 : ts.length = 1
    · obtain ⟨u, rfl⟩ := List.length_eq_one_iff.1 h1
      obtain ⟨v, rfl, hv⟩ := ih.one
      refine ⟨fun h => RK.wrapper (.tuple ht) (he t .self).2 (hv.1 h), fun h x w h1 h2 => ?_⟩
      subst h
      refine okC_one h1 trivial rfl (hv.2 rfl x w h1 ?_)
      rw [h2, findSingle_step (.tuple ht)]
    · refine ⟨fun hcf => ?_, fun h => (h1 (hc h)).elim⟩
      subst hcf
      have ih := toR ih
      have hl := ih.length
      have hns : ∀ w, ¬ SingleEntry reg t w := by
        intro w h
        rcases single_length h with ⟨f, h, -⟩ | h | h <;> rw [ht] at h <;> cases h
        exact h1 rfl
      refine RK.container ht (not_wraps_of hns) ?_ (fun s o h => by cases h)
      refine okC_composite (okC_do ?_)
      rw [Composite.encChildrenC]
      unfold doEncodeCompositeC
      rw [ht]; simp only
      unfold encCompositeAsTypeC
      rw [skip_done (not_wraps_of hns), ht]; simp only
      split
      · rename_i heq
        have := congrArg List.length heq
        rw [encUnnamedC_eq, List.length_map, hl] at this
        exact (h1 this).elim
      · have hsh : HasShape (ts.map (fun t => (⟨none, t⟩ : Field Id))) vs (.unnamed vs) := by
          refine .unnamed ?_
          cases ts with
          | nil => exact .inl rfl
          | cons t ts => exact .inr ⟨_, by simp; exact .inl rfl, rfl⟩
        have := okC_fieldsTo (reg := reg) (cc := cc) (R := RK reg cc) (fun t v bs h => h.okay) hsh ?_ (by rw [List.map_map]; simpa [Function.comp_def] using ih)
        · rwa [Composite.encChildrenC] at this
        · intro names hn
          cases ts with
          | nil => cases names with
            | nil => exact List.nodup_nil
            | cons n ns => cases hn
          | cons t ts => cases names with
            | nil => cases hn
            | cons n ns => simp at hn
  · -- composite
    intro c t fs vs cs bs ht hc _ hs ih he
    have ih := ih (fun w hw => fine_ref he ht hw)
    by_cases h1 : fs.length = 1
    · obtain ⟨⟨nm, u⟩, rfl⟩ := List.length_eq_one_iff.1 h1
      obtain ⟨v, rfl, hv⟩ := ih.one
      have hse : SingleEntry reg t u := .composite (f := ⟨nm, u⟩) ht
      have hvals : cs.vals = [v] := hasShape_vals hs (by simp)
      refine ⟨fun hcf => ?_, fun h x w h1 h2 => ?_⟩
      · subst hcf
        cases nm with
        | none =>
          have : cs = .unnamed [v] := by
            cases hs with
            | @named names h1 h2 => cases names <;> simp at h2
            | unnamed _ => rfl
          subst this
          exact RK.wrapper (.composite ht) (he t .self).2 (hv.1 rfl)
        | some s =>
          have hnw : ∀ w, ¬ Wraps reg t w := fun w h => by
            cases h with
            | composite h => rw [ht] at h; cases h
            | tuple h => rw [ht] at h; cases h
          refine RK.container ht hnw ?_ (fun s o h => by cases h)
          refine okC_composite (okC_do ?_)
          unfold doEncodeCompositeC
          rw [ht]; simp only
          unfold encCompositeAsTypeC
          rw [skip_done hnw, ht]; simp only
          split
          · rename_i heq _
            cases hs with
            | @named names h1 h2 =>
              cases names with
              | nil => simp at h2
              | cons n ns => rw [Composite.encChildrenC, encNamedC_eq] at heq; simp [childNamedC] at heq
            | unnamed h =>
              rcases h with h | ⟨f, h, h'⟩
              · cases h
              · simp only [List.mem_singleton] at h; rw [h] at h'; cases h'
          · exact okC_fieldsTo (fun t v bs h => h.okay) hs ((he t .self).1.fields _ ht) (toR ih)
      · subst h
        refine okC_one h1 trivial hvals (hv.2 rfl x w h1 ?_)
        rw [h2, findSingle_step hse]
    · refine ⟨fun hcf => ?_, fun h => (h1 (hc h)).elim⟩
      subst hcf
      have ih := toR ih
      have hl := ih.length
      rw [List.length_map] at hl
      have hns : ∀ w, ¬ SingleEntry reg t w := by
        intro w h
        rcases single_length h with ⟨f, h, -⟩ | h | h <;> rw [ht] at h <;> cases h
        exact h1 rfl
      refine RK.container ht (not_wraps_of hns) ?_ (fun s o h => by cases h)
      refine okC_composite (okC_do ?_)
      unfold doEncodeCompositeC
      rw [ht]; simp only
      unfold encCompositeAsTypeC
      rw [skip_done (not_wraps_of hns), ht]; simp only
      split
      · rename_i heq
        have := congrArg List.length heq
        rw [childrenC_length hs hl] at this
        exact (h1 this).elim
      · exact okC_fieldsTo (fun t v bs h => h.okay) hs ((he t .self).1.fields _ ht) ih
  · -- variant
    intro t ds d vs cs bs ht hd _ hs ih he
    have hmem := List.mem_of_find?_eq_some hd
    have ih := toR (ih (fun w hw => fine_ref he ht (by
      simp only [TypeDef.refs, List.mem_flatMap]; exact ⟨d, hmem, hw⟩)))
    obtain ⟨h1, h2, h3⟩ := leaf ht trivial
    refine ⟨fun _ => RK.container ht h1 (okC_variant ?_) (fun s o h => (h3 s o h).elim), fun h => by cases h⟩
    obtain ⟨hnd, hfo⟩ := (he t .self).1.variants ds ht
    unfold encVariantC
    rw [h2, ht]; simp only
    have hfind : ds.find? (fun e => e.name == d.name) = some d := by
      refine find?_unique hmem (by simp) ?_
      intro b hb hp
      have hp : b.name = d.name := by simpa using hp
      obtain ⟨i, hi, h1⟩ := List.getElem_of_mem hb
      obtain ⟨j, hj, h2⟩ := List.getElem_of_mem hmem
      have hpw := List.pairwise_iff_getElem.1 hnd
      have : i = j := by
        rcases Nat.lt_trichotomy i j with hlt | heq | hgt
        · refine (hpw i j (by simpa) (by simpa) hlt ?_).elim
          simp [h1, h2, hp]
        · exact heq
        · refine (hpw j i (by simpa) (by simpa) hgt ?_).elim
          simp [h1, h2, hp]
      subst this
      rw [← h1, ← h2]
    rw [hfind]
    have := okC_seq (n := 0) (okC_leaf (okay_write [d.index])) (okC_fieldsTo (reg := reg) (cc := cc) (fun t v bs h => h.okay) hs (hfo d hmem) ih)
    rw [Nat.zero_add] at this
    exact this
  · -- bits
    intro t s o b p q ht hp hl hq he
    have hns : ∀ w, ¬ SingleEntry reg t w := by
      intro w h
      rcases single_length h with ⟨f, h, -⟩ | h | h <;> rw [ht] at h <;> cases h
    exact ⟨fun _ => RK.container ht (not_wraps_of hns) (okC_bits (okay_bits_iff.2 ⟨s, o, by rw [findSingle_done hns, ht], bitsEnc_spec hp hl hq⟩)) (fun _ _ _ => rfl),
      fun h => by cases h⟩
  · intro c _; exact .nil
  · intro c t ts v vs bs bs' _ _ h1 h2 he
    exact .cons (h1 (he _ (by simp))) (h2 (fun w hw => he w (by simp [hw])))

/-! ### Values in wrappers that do not fit -/

theorem childrenC_one (reg : Reg Id) (cc : Bool) (v : Value Γ) : (Composite.unnamed [v]).encChildrenC reg cc = [childC reg cc v] := by
  rw [Composite.encChildrenC, encUnnamedC_eq]; rfl

theorem failC_wrapped {reg : Reg Id} {cc : Bool} {t : Id} {d : TypeDef Id} (h : reg.resolve t = some d) (hd : IsSimple d) {v : Value Γ} {n : Nat}
    (hv : FailC (v.encodeC reg cc t) n) (x : Γ) : FailC ((Value.mk (.composite (.unnamed [v])) x).encodeC reg cc t) (1 + 2 * n) := by
  refine failC_tick ?_
  rw [ValueDef.encodeC, childrenC_one]
  have := failC_last (c := childC reg cc v) (simple_not_single h hd) (by rw [doC_simple h hd]; exact hv) hv
  rwa [← Nat.two_mul] at this

theorem failC_nest {reg : Reg Id} {cc : Bool} {t : Id} {d : TypeDef Id} (h : reg.resolve t = some d) (hd : IsSimple d) {v : Value Γ} {n : Nat}
    (hv : FailC (v.encodeC reg cc t) n) (x : Γ) (k : Nat) : ∃ m, FailC ((nest x k v).encodeC reg cc t) m ∧ m + 1 = 2 ^ k * (n + 1) := by
  induction k with
  | zero => exact ⟨n, hv, by simp⟩
  | succ k ih =>
    obtain ⟨m, h1, h2⟩ := ih
    refine ⟨_, failC_wrapped h hd h1 x, ?_⟩
    rw [Nat.pow_succ, Nat.mul_right_comm, ← h2]; omega

/-! ### A list of bytes in wrappers -/

theorem byte_okC (reg : Reg Id) (cc : Bool) {t : Id} (h : reg.resolve t = some (.primitive .u8)) (b : UInt8) (x : Γ) (hb : b.toNat < 2 ^ 128) :
    OkC ((Value.mk (.primitive (.u128 ⟨b.toNat, hb⟩)) x).encodeC reg cc t) [b] (Value.mk (.primitive (.u128 ⟨b.toNat, hb⟩)) x : Value Γ).count := by
  refine okC_prim (okay_num_iff.2 (.uint (p := .u8) (k := 1) ?_ .u8 ?_))
  · rw [findSingle_done (simple_not_single h trivial), h]
  · have := isLe_leBytes (k := 1) (n := b.toNat) (by have := b.toNat_lt; omega)
    have e : leBytes 1 b.toNat = [b] := by simp [leBytes]
    rwa [e] at this

theorem failC_bytes {reg : Reg Id} {cc : Bool} {t : Id} {d : TypeDef Id} (h : reg.resolve t = some d) (hd : IsSimple d) {vs : List (Value Γ)} (hl : vs.length ≠ 1) (x : Γ) :
    FailC ((Value.mk (.composite (.unnamed vs)) x).encodeC reg cc t) 1 := by
  refine failC_tick (n := 0) ?_
  rw [ValueDef.encodeC, Composite.encChildrenC, encUnnamedC_eq]
  intro out
  have hdo : doEncodeCompositeC reg (vs.map (childC reg cc)) t = .leaf (.fail (.wrongShape t)) := by
    unfold doEncodeCompositeC
    rw [h]
    cases d <;> first | exact hd.elim | (match vs, hl with | [], _ => rfl | [v], h => exact (h rfl).elim | _ :: _ :: _, _ => rfl)
  unfold encCompositeC encLastC
  rw [hdo, findSingle_done (simple_not_single h hd)]
  match vs, hl with
  | [], _ => exact ⟨_, _, rfl⟩
  | [v], h => exact (h rfl).elim
  | _ :: _ :: _, _ => exact ⟨_, _, rfl⟩

/-- A list that does not fit the items of a sequence type, in `k` wrappers, at the sequence type. -/
theorem okC_wrapped_list {reg : Reg Id} {cc : Bool} {t u : Id} {d : TypeDef Id} (ht : reg.resolve t = some (.sequence u)) (hu : reg.resolve u = some d) (hd : IsSimple d)
    {v : Value Γ} {bs : List UInt8} {n : Nat} (hv : OkC (v.encodeC reg cc t) bs n) (hf : FailC (v.encodeC reg cc u) 1) (x : Γ) (k : Nat) :
    OkC ((nest x k v).encodeC reg cc t) bs (n + 2 ^ (k + 1) - 2) := by
  have hns : ∀ w, ¬ SingleEntry reg t w := fun w h => by
    rcases single_length h with ⟨f, h, -⟩ | h | h <;> rw [ht] at h <;> cases h
  induction k with
  | zero => simpa [nest] using hv
  | succ k ih =>
    obtain ⟨m, hm, hm'⟩ := failC_nest hu hd hf x k
    have h1 : FailC (doEncodeCompositeC reg [childC reg cc (nest x k v)] t) (0 + m) := by
      unfold doEncodeCompositeC
      rw [ht]
      refine failC_seq (okC_leaf (okay_write _)) ?_
      exact failC_seq_left (failC_mapErr hm)
    have h2 := okC_tick (d := .composite (.unnamed [nest x k v])) (x := x) (reg := reg) (cc := cc) (t := t) (bs := bs)
      (n := 0 + m + (n + 2 ^ (k + 1) - 2)) (by rw [ValueDef.encodeC, childrenC_one]; exact okC_last hns h1 ih)
    have e : 1 + (0 + m + (n + 2 ^ (k + 1) - 2)) = n + 2 ^ (k + 1 + 1) - 2 := by
      rw [Nat.pow_succ 2 (k + 1), Nat.pow_succ] at *
      have := Nat.pow_pos (n := k) (show 0 < 2 by decide)
      omega
    rw [e] at h2
    exact h2

theorem tower_skip : ∀ k, skip towerReg (k + 1) = 1
  | 0 => skip_done (fun u h => by cases h with
    | composite h => cases h
    | tuple h => cases h)
  | k + 1 => by rw [skip_step (u := k + 1) (.composite rfl)]; exact tower_skip k

theorem bytes_count (bs : List UInt8) : valuesCount (bs.map (fun b => Value.u128 (.ofU8 b))) = bs.length := by
  induction bs with
  | nil => rfl
  | cons b bs ih => rw [List.map_cons, valuesCount, ih, List.length_cons]; simp [Value.u128, Value.count]; omega

theorem bytes_all (reg : Reg Id) (cc : Bool) {t : Id} (h : reg.resolve t = some (.primitive .u8)) (bs : List UInt8) :
    All3 (fun t (v : Value Unit) bs => OkC (v.encodeC reg cc t) bs v.count) (List.replicate bs.length t) (bs.map (fun b => Value.u128 (.ofU8 b))) bs := by
  induction bs with
  | nil => exact .nil
  | cons b bs ih => exact .cons (bs := [b]) (byte_okC reg cc h b () _) ih

theorem tower_bytes (cc : Bool) (bs : List UInt8) (hl : bs.length < 2 ^ 32) :
    OkC ((Value.fromBytes bs).encodeC towerReg cc 1) (compactEnc bs.length ++ bs) (1 + bs.length) := by
  unfold Value.fromBytes Value.unnamedComposite Composite.mkUnnamed
  refine okC_tick ?_
  rw [ValueDef.encodeC, Composite.encChildrenC, encUnnamedC_eq]
  refine okC_do ?_
  have := okC_seq (n := 0) (okC_leaf (okay_write (compactEnc (bs.length % 2 ^ 32))))
      (okC_items (nm := true) (fun t v bs h => h) 0 (bytes_all towerReg cc (t := 0) rfl bs) (fun w hw => List.eq_of_mem_replicate hw))
  rw [Nat.zero_add, bytes_count, Nat.mod_eq_of_lt hl] at this
  unfold doEncodeCompositeC
  have ht : towerReg.resolve 1 = some (.sequence 0) := rfl
  rw [ht]
  simp only [List.length_map]
  rw [Nat.mod_eq_of_lt hl]
  exact this

theorem tower_wrapped (cc : Bool) (bs : List UInt8) (hl : bs.length < 2 ^ 32) (h1 : bs.length ≠ 1) (k : Nat) :
    OkC ((nest () (k + 1) (.fromBytes bs)).encodeC towerReg cc (k + 2)) (compactEnc bs.length ++ bs) (bs.length + 2 ^ (k + 1)) := by
  have h := okC_wrapped_list (reg := towerReg) (t := 1) (u := 0) rfl rfl (show IsSimple (.primitive .u8) from trivial) (tower_bytes cc bs hl)
    (failC_bytes (reg := towerReg) (d := .primitive .u8) rfl trivial (by simpa using h1) ()) () k
  have hw : Wraps towerReg (k + 2) (k + 1) := .composite rfl
  have e : bs.length + 2 ^ (k + 1) = 1 + (1 + bs.length + 2 ^ (k + 1) - 2) := by
    have := Nat.pow_pos (n := k) (show 0 < 2 by decide)
    rw [Nat.pow_succ]; omega
  rw [e]
  refine okC_tick ?_
  rw [ValueDef.encodeC, childrenC_one]
  refine okC_do ?_
  have hs : skip towerReg (k + 2) = 1 := tower_skip (k + 1)
  rw [doC_wraps (d := .sequence 0) rfl hw (by rw [hs]; rfl), hs]
  exact h

/-! ### The buffer does not matter -/

/-- The number of calls does not depend on what is in the buffer. -/
def Steady (a : EncC Id) : Prop := ∀ out, (a out).2 = (a []).2

theorem steady_leaf (a : EncM Id) : Steady (.leaf a) := fun _ => rfl

theorem steady_mapErr {f : EErr Id → EErr Id} {a : EncC Id} (h : Steady a) : Steady (.mapErr f a) := by
  have : ∀ out, (EncC.mapErr f a out).2 = (a out).2 := by
    intro out
    unfold EncC.mapErr
    rcases a out with ⟨⟨_ | _, o⟩, n⟩ <;> rfl
  intro out
  rw [this, this, h]

theorem steady_seq {a b : EncC Id} (ha : Steady a) (hg : AppendOnly a.erase) (hb : Steady b) : Steady (.seq a b) := by
  intro out
  have h1 := ha out
  have h2 := hg out
  unfold EncC.erase at h2
  unfold EncC.seq
  rcases hx : a out with ⟨⟨r, o⟩, n⟩
  rcases hy : a [] with ⟨⟨r', o'⟩, n'⟩
  rw [hx, hy] at h1 h2
  simp only [Prod.mk.injEq] at h1 h2
  obtain ⟨rfl, -⟩ := h2
  subst h1
  cases r with
  | error e => rfl
  | ok x => dsimp only; rw [hb o, hb o']

section
variable {cs : List (CChild Id)}

/-- What is needed of the values. -/
def SteadyAll (cs : List (CChild Id)) : Prop := (∀ c ∈ cs, ∀ t, Steady (c.enc t)) ∧ AppendOnlyAll (cs.map CChild.erase)

theorem SteadyAll.head {c : CChild Id} (h : SteadyAll cs) (hc : c ∈ cs) (t : Id) : Steady (c.enc t) ∧ AppendOnly (c.enc t).erase :=
  ⟨h.1 c hc t, h.2 c.erase (List.mem_map.2 ⟨c, hc, rfl⟩) t⟩

theorem SteadyAll.tail {c : CChild Id} (h : SteadyAll (c :: cs)) : SteadyAll cs :=
  ⟨fun d hd => h.1 d (by simp [hd]), fun d hd => h.2 d (by rw [List.map_cons]; simp [hd])⟩

theorem steady_items (h : SteadyAll cs) (t : Id) (nm : Bool) (k : Nat) : Steady (encItemsC t nm k cs) := by
  induction cs generalizing k with
  | nil => exact steady_leaf _
  | cons c cs ih =>
    obtain ⟨h1, h2⟩ := h.head (c := c) (by simp) t
    exact steady_seq (steady_mapErr h1) (by rw [erase_mapErr]; exact append_mapErr h2) (ih h.tail _)

theorem steady_byOrder (h : SteadyAll cs) (k : Nat) (fs : List (Field Id)) : Steady (encByOrderC k cs fs) := by
  induction cs generalizing k fs with
  | nil => cases fs <;> exact steady_leaf _
  | cons c cs ih =>
    cases fs with
    | nil => exact steady_leaf _
    | cons f fs =>
      obtain ⟨h1, h2⟩ := h.head (c := c) (by simp) f.id
      exact steady_seq (steady_mapErr h1) (by rw [erase_mapErr]; exact append_mapErr h2) (ih h.tail _ _)

theorem steady_byName (h : SteadyAll cs) (fs : List (Field Id)) : Steady (encByNameC cs fs) := by
  induction fs with
  | nil => exact steady_leaf _
  | cons f fs ih =>
    unfold encByNameC
    split
    · exact steady_leaf _
    · rename_i c hc
      obtain ⟨h1, h2⟩ := h.head (c := c) (by simpa using List.mem_of_find?_eq_some hc) f.id
      exact steady_seq (steady_mapErr h1) (by rw [erase_mapErr]; exact append_mapErr h2) ih

theorem steady_fieldsTo (h : SteadyAll cs) (fs : List (Field Id)) : Steady (encFieldsToC cs fs) := by
  unfold encFieldsToC
  split
  · exact steady_byName h fs
  · split
    · exact steady_leaf _
    · exact steady_byOrder h 0 fs

theorem steady_composite (reg : Reg Id) (cs : List (CChild Id)) (t : Id) : Steady (encCompositeC reg cs t) := by
  intro out
  have h : ∀ u e, (encLastC cs u e out).2 = (encLastC cs u e []).2 := by
    intro u e
    unfold encLastC
    split
    · split <;> rfl
    · rfl
  unfold encCompositeC
  rcases doEncodeCompositeC reg cs t [] with ⟨⟨e | _, o⟩, n⟩
  · rcases findSingle reg t with ⟨inner, _ | _⟩ <;> dsimp only
    · rw [h]
    · rcases doEncodeCompositeC reg cs inner [] with ⟨⟨_ | _, o'⟩, m⟩ <;> dsimp only
      rw [h]
  · rfl

theorem steady_variant (h : SteadyAll cs) (reg : Reg Id) (n : Str) (t : Id) : Steady (encVariantC reg n cs t) := by
  unfold encVariantC
  split
  · split
    · exact steady_leaf _
    · exact steady_seq (steady_leaf _) (append_write _) (steady_fieldsTo h _)
  · exact steady_leaf _
  · exact steady_leaf _
end

mutual
theorem steady_value (reg : Reg Id) (cc : Bool) : ∀ (v : Value Γ) (t : Id), Steady (v.encodeC reg cc t)
  | .mk d _, t => by
    intro out
    rw [Value.encodeC]
    dsimp only
    rw [steady_def reg cc d t out]
theorem steady_def (reg : Reg Id) (cc : Bool) : ∀ (d : ValueDef Γ) (t : Id), Steady (d.encodeC reg cc t)
  | .composite c, t => by rw [ValueDef.encodeC]; exact steady_composite _ _ _
  | .variant (.mk n c), t => by
    rw [ValueDef.encodeC]
    exact steady_variant ⟨steady_comp reg cc c, by rw [erase_comp]; exact append_children reg cc c⟩ _ _ _
  | .primitive p, t => by rw [ValueDef.encodeC]; exact steady_leaf _
  | .bitSequence b, t => by rw [ValueDef.encodeC]; exact steady_leaf _
theorem steady_comp (reg : Reg Id) (cc : Bool) : ∀ (c : Composite Γ), ∀ x ∈ c.encChildrenC reg cc, ∀ t, Steady (x.enc t)
  | .named fs => by rw [Composite.encChildrenC]; exact steady_named reg cc fs
  | .unnamed vs => by rw [Composite.encChildrenC]; exact steady_unnamed reg cc vs
theorem steady_named (reg : Reg Id) (cc : Bool) : ∀ (fs : List (Str × Value Γ)), ∀ x ∈ encNamedC reg cc fs, ∀ t, Steady (x.enc t)
  | [] => by rw [encNamedC]; intro c hc; cases hc
  | (k, v) :: r => by
    rw [encNamedC]
    intro c hc
    rcases List.mem_cons.1 hc with rfl | hc
    · exact steady_value reg cc v
    · exact steady_named reg cc r c hc
theorem steady_unnamed (reg : Reg Id) (cc : Bool) : ∀ (vs : List (Value Γ)), ∀ x ∈ encUnnamedC reg cc vs, ∀ t, Steady (x.enc t)
  | [] => by rw [encUnnamedC]; intro c hc; cases hc
  | v :: r => by
    rw [encUnnamedC]
    intro c hc
    rcases List.mem_cons.1 hc with rfl | hc
    · exact steady_value reg cc v
    · exact steady_unnamed reg cc r c hc
end

/-! ### Contexts do not matter -/

section
variable {Δ : Type}

mutual
theorem encodeC_mapContext {S : Type} (reg : Reg Id) (cc : Bool) (f : S → Γ → Δ × S) : ∀ (v : Value Γ) (s : S),
    (v.mapContextS f s).encodeC reg cc = v.encodeC reg cc
  | .mk d c, s => by rw [Value.mapContextS, Value.encodeC, Value.encodeC, encodeC_mapContext_def]
theorem encodeC_mapContext_def {S : Type} (reg : Reg Id) (cc : Bool) (f : S → Γ → Δ × S) : ∀ (d : ValueDef Γ) (s : S),
    (d.mapContextS f s).encodeC reg cc = d.encodeC reg cc
  | .composite c, s => by rw [ValueDef.mapContextS, ValueDef.encodeC, ValueDef.encodeC, encodeC_mapContext_children]
  | .variant (.mk n c), s => by rw [ValueDef.mapContextS, Variant.mapContextS, ValueDef.encodeC, ValueDef.encodeC, encodeC_mapContext_children]
  | .primitive p, s => by rw [ValueDef.mapContextS, ValueDef.encodeC, ValueDef.encodeC]
  | .bitSequence b, s => by rw [ValueDef.mapContextS, ValueDef.encodeC, ValueDef.encodeC]
theorem encodeC_mapContext_children {S : Type} (reg : Reg Id) (cc : Bool) (f : S → Γ → Δ × S) : ∀ (c : Composite Γ) (s : S),
    (c.mapContextS f s).encChildrenC reg cc = c.encChildrenC reg cc
  | .named fs, s => by rw [Composite.mapContextS, Composite.encChildrenC, Composite.encChildrenC, encodeC_mapContext_named]
  | .unnamed fs, s => by rw [Composite.mapContextS, Composite.encChildrenC, Composite.encChildrenC, encodeC_mapContext_unnamed]
theorem encodeC_mapContext_named {S : Type} (reg : Reg Id) (cc : Bool) (f : S → Γ → Δ × S) : ∀ (fs : List (Str × Value Γ)) (s : S),
    encNamedC reg cc (mapFieldsS f fs s) = encNamedC reg cc fs
  | [], s => by rw [mapFieldsS, encNamedC, encNamedC]
  | (k, v) :: r, s => by rw [mapFieldsS, encNamedC, encNamedC, encodeC_mapContext, bitOf_mapContext, encodeC_mapContext_named]
theorem encodeC_mapContext_unnamed {S : Type} (reg : Reg Id) (cc : Bool) (f : S → Γ → Δ × S) : ∀ (fs : List (Value Γ)) (s : S),
    encUnnamedC reg cc (mapValsS f fs s) = encUnnamedC reg cc fs
  | [], s => by rw [mapValsS, encUnnamedC, encUnnamedC]
  | v :: r, s => by rw [mapValsS, encUnnamedC, encUnnamedC, encodeC_mapContext, bitOf_mapContext, encodeC_mapContext_unnamed]
end

mutual
theorem count_mapContext {S : Type} (f : S → Γ → Δ × S) : ∀ (v : Value Γ) (s : S), (v.mapContextS f s).count = v.count
  | .mk (.composite (.named fs)) c, s => by
    rw [Value.mapContextS, ValueDef.mapContextS, Composite.mapContextS, Value.count, Value.count, count_mapContext_named]
  | .mk (.composite (.unnamed fs)) c, s => by
    rw [Value.mapContextS, ValueDef.mapContextS, Composite.mapContextS, Value.count, Value.count, count_mapContext_unnamed]
  | .mk (.variant (.mk n (.named fs))) c, s => by
    rw [Value.mapContextS, ValueDef.mapContextS, Variant.mapContextS, Composite.mapContextS, Value.count, Value.count,
      count_mapContext_named]
  | .mk (.variant (.mk n (.unnamed fs))) c, s => by
    rw [Value.mapContextS, ValueDef.mapContextS, Variant.mapContextS, Composite.mapContextS, Value.count, Value.count,
      count_mapContext_unnamed]
  | .mk (.primitive p) c, s => by rw [Value.mapContextS, ValueDef.mapContextS, Value.count, Value.count]
  | .mk (.bitSequence b) c, s => by rw [Value.mapContextS, ValueDef.mapContextS, Value.count, Value.count]
theorem count_mapContext_named {S : Type} (f : S → Γ → Δ × S) : ∀ (fs : List (Str × Value Γ)) (s : S), fieldsCount (mapFieldsS f fs s) = fieldsCount fs
  | [], s => by rw [mapFieldsS, fieldsCount, fieldsCount]
  | (k, v) :: r, s => by rw [mapFieldsS, fieldsCount, fieldsCount, count_mapContext, count_mapContext_named]
theorem count_mapContext_unnamed {S : Type} (f : S → Γ → Δ × S) : ∀ (fs : List (Value Γ)) (s : S), valuesCount (mapValsS f fs s) = valuesCount fs
  | [], s => by rw [mapValsS, valuesCount, valuesCount]
  | v :: r, s => by rw [mapValsS, valuesCount, valuesCount, count_mapContext, count_mapContext_unnamed]
end
end

end SV
