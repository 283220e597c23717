import Mathlib.Logic.Relation
import Verif.Proofs.Bottomless
import Verif.Spec.Stuck
import Verif.Proofs.Stuck
import Verif.Props.Endless
/-
C86: encoding ends, whatever the table of types is, unless there are wrapper types without end; at such a type no value can be encoded.
-/
namespace SV

variable {Id Γ : Type}

/-- C86: encoding a value returns if no type within the type is a wrapper without end. -/
theorem C86_ends (res : Table Id) (cc : Bool) (v : Value Γ) (t : Id) (h : ∀ u, WithinType res t u → ¬ Bottomless res u) (out : List UInt8) :
    ∃ r, v.encodeT res cc t out = some r :=
  returns_value (S := WithinType res t) ⟨fun _ _ _ ha hd hw => .step ha hd hw, h⟩ cc v t .self out

/-- C86: of encoding as fields. -/
theorem C86_fields (res : Table Id) (cc : Bool) (v : Value Γ) (fs : List (Field Id)) (h : ∀ f ∈ fs, ∀ u, WithinType res f.id u → ¬ Bottomless res u) (out : List UInt8) :
    ∃ r, v.encodeAsFieldsT res cc fs out = some r := by
  obtain ⟨d, x⟩ := v
  cases d with
  | composite c =>
    have hS : FineSet res (fun u => ∃ f ∈ fs, WithinType res f.id u) :=
      ⟨fun _ _ _ ⟨f, hf, ha⟩ hd hw => ⟨f, hf, .step ha hd hw⟩, fun u ⟨f, hf, hu⟩ => h f hf u hu⟩
    exact returns_fields (returns_children hS cc c) (fun f hf => ⟨f, hf, .self⟩) out
  | variant w => exact ⟨_, rfl⟩
  | primitive p => exact ⟨_, rfl⟩
  | bitSequence b => exact ⟨_, rfl⟩

/-- C86: at a wrapper type without end no call returns, except of 256 bit numbers. -/
theorem C86_never (res : Table Id) (cc : Bool) (v : Value Γ) (hv : ∀ b, v.value ≠ .primitive (.u256 b) ∧ v.value ≠ .primitive (.i256 b)) (t : Id) (h : Bottomless res t) (out : List UInt8) :
    v.encodeT res cc t out = none := by
  have hn := findSingleT_none.2 h
  obtain ⟨d, x⟩ := v
  rw [Value.encodeT]
  cases d with
  | composite c => rw [ValueDef.encodeT]; exact composite_bottomless (neverOk_children cc c) h out
  | variant w => obtain ⟨n, c⟩ := w; rw [ValueDef.encodeT, encVariantT, hn]; rfl
  | bitSequence b => rw [ValueDef.encodeT, encBitsT, hn]; rfl
  | primitive p =>
    rw [ValueDef.encodeT]
    cases p with
    | bool b => rw [encPrimitiveT, encBoolT, hn]; rfl
    | char c => rw [encPrimitiveT, encNumT, hn]; rfl
    | string s => rw [encPrimitiveT, encStrT, hn]; rfl
    | u128 n => rw [encPrimitiveT, encNumT, hn]; rfl
    | i128 n => rw [encPrimitiveT, encNumT, hn]; rfl
    | u256 b => exact absurd rfl (hv b).1
    | i256 b => exact absurd rfl (hv b).2

/-- C86: those do not return if the wrappers are structs and tuples; if there is an array they fail because of its length. -/
theorem C86_bytes (res : Table Id) (cc : Bool) (b : Bytes32) (v : Value Γ) (hv : v.value = .primitive (.u256 b) ∨ v.value = .primitive (.i256 b)) (t : Id) (h : Bottomless res t) (out : List UInt8) :
    (BottomlessBare res t → v.encodeT res cc t out = none) ∧ (¬ BottomlessBare res t → v.encodeT res cc t out = some (.error (.of (.wrongLength 32 1)), out)) := by
  have hl : b.bytes.length ≠ 1 := by rw [b.len]; decide
  have he : v.encodeT res cc t out = encBytesT res b.bytes t out := by
    obtain ⟨d, x⟩ := v
    have hv : d = .primitive (.u256 b) ∨ d = .primitive (.i256 b) := hv
    rcases hv with rfl | rfl <;> rfl
  rw [he]
  refine ⟨fun hb => bytes_bare hb out, fun hb => ?_⟩
  have := bytes_not_bare hl h hb out
  rwa [b.len] at this

/-- C86: bools, strings, bit sequences and variants without fields: exactly then. -/
theorem C86_leaf (res : Table Id) (cc : Bool) (v : Value Γ) (hv : (∃ b, v.value = .primitive (.bool b)) ∨ (∃ s, v.value = .primitive (.string s)) ∨ (∃ b, v.value = .bitSequence b) ∨ ∃ n, v.value = .variant (.mk n (.unnamed [])))
    (t : Id) (out : List UInt8) : v.encodeT res cc t out = none ↔ Bottomless res t := by
  refine ⟨fun h => ?_, fun h => C86_never res cc v (fun b => ⟨fun e => by simp [e] at hv, fun e => by simp [e] at hv⟩) t h out⟩
  obtain ⟨d, x⟩ := v
  rw [Value.encodeT] at h
  rw [← findSingleT_none]
  by_cases hn : findSingleT res t = none
  · exact hn
  · exfalso
    revert h
    obtain ⟨b, hv⟩ | ⟨b, hv⟩ | ⟨b, hv⟩ | ⟨n, hv⟩ := hv
    all_goals
      have hv : d = _ := hv
      subst hv
      rw [ValueDef.encodeT]
      intro h
    · have : EncReturns (encBoolT res b t) := returns_after hn (fun p _ => by split <;> exact returns_ret _)
      obtain ⟨r, hr⟩ := this out
      rw [encPrimitiveT] at h; rw [h] at hr; cases hr
    · have : EncReturns (encStrT res b t) := returns_after hn (fun p _ => by split <;> exact returns_ret _)
      obtain ⟨r, hr⟩ := this out
      rw [encPrimitiveT] at h; rw [h] at hr; cases hr
    · have : EncReturns (encBitsT res b t) := returns_after hn (fun p _ => by split <;> exact returns_ret _)
      obtain ⟨r, hr⟩ := this out
      rw [h] at hr; cases hr
    · have : EncReturns (encVariantT res n ((Composite.unnamed ([] : List (Value Γ))).encChildrenT res cc) t) := returns_after hn (fun p _ => by
        split
        · split
          · exact returns_ret _
          · refine returns_seq (returns_ret _) (returns_fields (S := fun _ => True) (fun c hc => ?_) (fun _ _ => trivial))
            cases hc
        · exact returns_ret _
        · exact returns_ret _)
      obtain ⟨r, hr⟩ := this out
      rw [h] at hr; cases hr

/-- C86: numbers and chars: also if the type is a wrapper of a `Compact` of such a type. -/
theorem C86_number (res : Table Id) (cc : Bool) (v : Value Γ) (hv : (∃ n, v.value = .primitive (.u128 n)) ∨ (∃ n, v.value = .primitive (.i128 n)) ∨ ∃ c, v.value = .primitive (.char c)) (t : Id) (out : List UInt8) :
    v.encodeT res cc t out = none ↔ Bottomless res t ∨ ∃ u w, Relation.ReflTransGen (WrapsIn res) t u ∧ res u = some (.compact w) ∧ Bottomless res w := by
  have key : ∀ cc n, encNumT res cc n t out = none ↔ Bottomless res t ∨ ∃ u w, Relation.ReflTransGen (WrapsIn res) t u ∧ res u = some (.compact w) ∧ Bottomless res w := by
    intro cc n
    unfold encNumT
    cases hf : findSingleT res t with
    | none => exact ⟨fun _ => .inl (findSingleT_none.1 hf), fun _ => rfl⟩
    | some p =>
      rw [afterT_some]
      have hb : ¬ Bottomless res t := fun h => by rw [findSingleT_none.2 h] at hf; cases hf
      obtain ⟨k, hk⟩ := findSingleT_some.1 hf
      obtain ⟨hreach, hend⟩ := findSingleTN_closed (Q := fun a => Relation.ReflTransGen (WrapsIn res) t a) (fun a b h hw => .tail h hw) k t false p hk .refl
      have uniq : ∀ u w, Relation.ReflTransGen (WrapsIn res) t u → res u = some (.compact w) → u = p.1 := by
        intro u w hu hr
        have hstop : ∀ x, ¬ WrapsIn res u x := by
          rintro x (h | h | h) <;> rw [hr] at h <;> cases h
        exact (Relation.ReflTransGen.total_of_right_unique (r := WrapsIn res) (fun _ _ _ h h' => wrapsIn_unique h h') hu hreach).elim
          (fun h => by
            rcases Relation.ReflTransGen.cases_head h with h | ⟨x, hx, -⟩
            · exact h
            · exact absurd hx (hstop x))
          (fun h => by
            rcases Relation.ReflTransGen.cases_head h with h | ⟨x, hx, -⟩
            · exact h.symm
            · exact absurd hx (hend x))
      by_cases hc : ∃ w, res p.1 = some (.compact w)
      · obtain ⟨w, hw⟩ := hc
        rw [hw]
        dsimp only
        constructor
        · intro h
          refine .inr ⟨p.1, w, hreach, hw, ?_⟩
          rw [← findSingleT_none]
          by_cases hn : findSingleT res w = none
          · exact hn
          · exfalso
            have : ∀ {f : Id × Bool → EncT Id}, (∀ q, EncReturns (f q)) → EncT.after (findSingleT res w) f out ≠ none := by
              intro f hf h
              obtain ⟨r, hr⟩ := returns_after (Id := Id) hn (fun q _ => hf q) out
              rw [h] at hr; cases hr
            refine this (fun q => ?_) h
            split <;> exact returns_ret _
        · rintro (h | ⟨u, w', hu, hr, hb'⟩)
          · exact absurd h hb
          · rw [uniq u w' hu hr, hw] at hr
            cases hr
            rw [findSingleT_none.2 hb']; rfl
      · refine ⟨fun h => ?_, ?_⟩
        · exfalso
          have : EncReturns (encNumT res cc n t) := by
            unfold encNumT
            refine returns_after (by rw [hf]; simp) (fun q hq => ?_)
            rw [hf] at hq
            cases hq
            split
            case h_12 w hw => exact absurd ⟨w, hw⟩ hc
            all_goals exact returns_ret _
          obtain ⟨r, hr⟩ := this out
          unfold encNumT at hr
          rw [hf, afterT_some, h] at hr
          cases hr
        · rintro (h | ⟨u, w', hu, hr, -⟩)
          · exact absurd h hb
          · exact absurd ⟨w', by rw [← uniq u w' hu hr]; exact hr⟩ hc
  obtain ⟨d, x⟩ := v
  obtain ⟨n, hv⟩ | ⟨n, hv⟩ | ⟨n, hv⟩ := hv
  all_goals
    have hv : d = _ := hv
    subst hv
    exact key _ _

/-- C86: how encoding ends, with success, with an error or never, does not depend on what is in the buffer. -/
theorem C86_outcome (res : Table Id) (cc : Bool) (v : Value Γ) (t : Id) : ∃ o, EndsIn res cc v t o ∧ ∀ o', EndsIn res cc v t o' → o' = o := by
  obtain ⟨o, h⟩ := uni_value res cc v t
  exact ⟨o, h, fun o' h' => runs_unique h' h⟩

/-- C86: how it ends for a composite, exactly. -/
theorem C86_composite (res : Table Id) (cc : Bool) (c : Composite Γ) (x : Γ) (t : Id) (o : Ending) : EndsIn res cc (.mk (.composite c) x) t o ↔ CompositeO res cc c t o := by
  refine ⟨fun h => ?_, fun h => runs_composite h⟩
  obtain ⟨o', h'⟩ := compositeO_exists (fun v _ => uni_value res cc v) (c := c) t
  rwa [runs_unique (e := encCompositeT res (c.encChildrenT res cc) t) h (runs_composite h')]

/-- C86: for a variant. -/
theorem C86_variant (res : Table Id) (cc : Bool) (s : Str) (c : Composite Γ) (x : Γ) (t : Id) (o : Ending) :
    EndsIn res cc (.mk (.variant (.mk s c)) x) t o ↔ VariantO res cc s c t o := by
  refine ⟨fun h => ?_, fun h => runs_variant h⟩
  obtain ⟨o', h'⟩ := variantO_exists (fun v _ => uni_value res cc v) s (c := c) t
  rwa [runs_unique (e := encVariantT res s (c.encChildrenT res cc) t) h (runs_variant h')]

/-- C86: a wrapper type without end is a type without end: nothing can be decoded of it either. So if no type within the type is without end then both decoding and encoding return. -/
theorem C86_both (res : Table Id) (t : Id) :
    (Bottomless res t → Endless res (false, t)) ∧
    ((∀ u, WithinType res t u → ∀ c, ¬ Endless res (c, u)) → (∀ (al : Nat → Bool) bs, ∃ r, decodeT id res al t bs = some r) ∧ ∀ (cc : Bool) (v : Value Γ) out, ∃ r, v.encodeT res cc t out = some r) := by
  have hb : ∀ u, Bottomless res u → Endless res (false, u) := by
    rintro u ⟨f, rfl, hf⟩
    refine ⟨fun n => (false, f n), rfl, fun n => ⟨[], [], ?_, by simp⟩⟩
    show Inline res false (f n) false [f (n + 1)]
    have := hf n
    generalize f (n + 1) = u at this
    cases this with
    | struct h => exact .composite h
    | tuple h => exact .tuple h
    | array h => exact .array (n := 1) h
  exact ⟨hb t, fun h => ⟨fun al bs => C85_ends id res al t h bs, fun cc v out => C86_ends res cc v t (fun u hu hbu => h u hu false (hb u hbu)) out⟩⟩

/-- C86: with the registries of the other properties these definitions say what the others do. -/
theorem C86_registry (reg : Reg Id) (cc : Bool) (v : Value Γ) (t : Id) (fs : List (Field Id)) (out : List UInt8) :
    v.encodeT reg.resolve cc t out = some (v.encode reg cc t out) ∧ v.encodeAsFieldsT reg.resolve cc fs out = some (v.encodeAsFields reg cc fs out) := by
  refine ⟨congrFun (encodeT_reg reg cc v t) out, ?_⟩
  obtain ⟨d, x⟩ := v
  cases d with
  | composite c =>
    show encFieldsToT (c.encChildrenT reg.resolve cc) fs out = _
    rw [childrenT_reg, encFieldsToT_lift]; rfl
  | variant w => rfl
  | primitive p => rfl
  | bitSequence b => rfl

/-! ### C86 is about something -/

/-- `struct A(B)` (type 0), `struct B { a: A }` (type 1), an array of length one of itself (type 2), `u8` (type 3), `enum { X(A), Y(u8) }` (type 4), `Compact<A>` (type 5). -/
def exWrap : Table Nat
  | 0 => some (.composite [⟨none, 1⟩])
  | 1 => some (.composite [⟨some "a".toList, 0⟩])
  | 2 => some (.array 2 1)
  | 3 => some (.primitive .u8)
  | 4 => some (.variant [⟨"X".toList, 0, [⟨none, 0⟩]⟩, ⟨"Y".toList, 1, [⟨none, 3⟩]⟩])
  | 5 => some (.compact 0)
  | _ => none

theorem exWrap_bare : BottomlessBare exWrap 0 := by
  refine ⟨fun n => n % 2, rfl, fun n => ?_⟩
  rcases Nat.mod_two_eq_zero_or_one n with h | h
  · have h' : (n + 1) % 2 = 1 := by omega
    simp only [h, h']
    exact ⟨.struct (res := exWrap) (t := 0) (f := ⟨none, 1⟩) rfl, by simp [exWrap]⟩
  · have h' : (n + 1) % 2 = 0 := by omega
    simp only [h, h']
    exact ⟨.struct (res := exWrap) (t := 1) (f := ⟨some "a".toList, 0⟩) rfl, by simp [exWrap]⟩

theorem exWrap_bottomless : Bottomless exWrap 0 := by
  obtain ⟨f, h, hf⟩ := exWrap_bare
  exact ⟨f, h, fun n => (hf n).1⟩

theorem exWrap_array : Bottomless exWrap 2 := ⟨fun _ => 2, rfl, fun _ => .array rfl⟩

/-- A number at `A` and at `Compact<A>`; an empty composite at `A`. -/
example (out : List UInt8) : (Value.mk (.primitive (.u128 ⟨1, by decide⟩)) () : Value Unit).encodeT exWrap false 0 out = none :=
  C86_never exWrap false _ (fun b => ⟨(fun h => by cases h), (fun h => by cases h)⟩) 0 exWrap_bottomless out
example (out : List UInt8) : (Value.mk (.primitive (.u128 ⟨1, by decide⟩)) () : Value Unit).encodeT exWrap false 5 out = none :=
  (C86_number exWrap false _ (.inl ⟨_, rfl⟩) 5 out).2 (.inr ⟨5, 0, .refl, rfl, exWrap_bottomless⟩)
example (out : List UInt8) : (Value.mk (.composite (.unnamed [])) () : Value Unit).encodeT exWrap false 0 out = none :=
  C86_never exWrap false _ (fun b => ⟨(fun h => by cases h), (fun h => by cases h)⟩) 0 exWrap_bottomless out
/-- A 256 bit number at `A` and at the array. -/
example (b : Bytes32) (out : List UInt8) : (Value.mk (.primitive (.u256 b)) () : Value Unit).encodeT exWrap false 0 out = none :=
  (C86_bytes exWrap false b _ (.inl rfl) 0 exWrap_bottomless out).1 exWrap_bare
example (b : Bytes32) (out : List UInt8) : (Value.mk (.primitive (.u256 b)) () : Value Unit).encodeT exWrap false 2 out = some (.error (.of (.wrongLength 32 1)), out) := by
  refine (C86_bytes exWrap false b _ (.inl rfl) 2 exWrap_array out).2 ?_
  rintro ⟨f, h0, hf⟩
  exact (hf 0).2 2 1 (by rw [h0]; rfl)
/-- Types of the enum: `Y(7)` can be encoded, although `A` is within the type. -/
example : ¬ Bottomless exWrap 4 ∧ ¬ Bottomless exWrap 3 := by
  constructor
  · intro h; obtain ⟨u, hu, -⟩ := bottomless_next h; cases hu <;> simp_all [exWrap]
  · intro h; obtain ⟨u, hu, -⟩ := bottomless_next h; cases hu <;> simp_all [exWrap]
/-- The hypothesis of `C86_ends`: of `u8`, and of the type `A` of C85, which is without end but not a wrapper: its values cannot be decoded, but encoding returns. -/
example : ∀ u, WithinType exWrap 3 u → ¬ Bottomless exWrap u := by
  have : ∀ u, WithinType exWrap 3 u → u = 3 := by
    intro u h
    induction h with
    | self => rfl
    | step _ hd hw ih => subst ih; simp only [exWrap, Option.some.injEq] at hd; subst hd; simp [TypeDef.mentions] at hw
  intro u hu h
  rw [this u hu] at h
  obtain ⟨u, hu, -⟩ := bottomless_next h; cases hu <;> simp_all [exWrap]
example (v : Value Unit) (cc : Bool) (out : List UInt8) : Endless exLoop (false, 0) ∧ ∃ r, v.encodeT exLoop cc 0 out = some r := by
  refine ⟨exLoop_endless, C86_ends exLoop cc v 0 ?_ out⟩
  have : ∀ u, WithinType exLoop 0 u → u = 0 ∨ u = 1 := by
    intro u h
    induction h with
    | self => exact .inl rfl
    | step _ hd hw ih =>
      rcases ih with rfl | rfl
      · simp only [exLoop, Option.some.injEq] at hd; subst hd; simpa [TypeDef.mentions, or_comm] using hw
      · simp only [exLoop, Option.some.injEq] at hd; subst hd; simp [TypeDef.mentions] at hw
  intro u hu h
  obtain ⟨w, hw, -⟩ := bottomless_next h
  rcases this u hu with rfl | rfl <;> cases hw <;> simp_all [exLoop]

/-- A number of the enum's `Y(7)`: the number is of `u8`. -/
theorem exWrap_seven : EndsIn exWrap false (.mk (.primitive (.u128 ⟨7, by decide⟩)) () : Value Unit) 3 .ok := by
  intro out
  show ending (encNumT exWrap false 7 3 out) = .ok
  unfold encNumT
  rw [not_wraps_find (t := 3) (by rintro w (h | h | h) <;> cases h)]
  rfl

/-- `Y(7)` can be encoded; `X(7)` never ends; there is no `Z`. -/
example : EndsIn exWrap false (.mk (.variant (.mk "Y".toList (.unnamed [.mk (.primitive (.u128 ⟨7, by decide⟩)) ()]))) () : Value Unit) 4 .ok := by
  rw [C86_variant]
  refine .variant (u := 4) (before := [⟨"X".toList, 0, [⟨none, 0⟩]⟩]) (d := ⟨"Y".toList, 1, [⟨none, 3⟩]⟩) (after := [])
    ⟨.refl, by rintro w (h | h | h) <;> cases h⟩ rfl rfl (by simp) ?_
  exact .byOrder (.inl ⟨_, rfl⟩) rfl (.next exWrap_seven .nil)
example : EndsIn exWrap false (.mk (.variant (.mk "X".toList (.unnamed [.mk (.primitive (.u128 ⟨7, by decide⟩)) ()]))) () : Value Unit) 4 .never := by
  rw [C86_variant]
  refine .variant (u := 4) (before := []) (d := ⟨"X".toList, 0, [⟨none, 0⟩]⟩) (after := [⟨"Y".toList, 1, [⟨none, 3⟩]⟩])
    ⟨.refl, by rintro w (h | h | h) <;> cases h⟩ rfl rfl (by simp) ?_
  refine .byOrder (.inl ⟨_, rfl⟩) rfl (.stop (fun out => ?_) (by simp))
  rw [C86_never exWrap false _ (fun b => ⟨(fun h => by cases h), (fun h => by cases h)⟩) 0 exWrap_bottomless out]
  rfl
example : EndsIn exWrap false (.mk (.variant (.mk "Z".toList (.unnamed []))) () : Value Unit) 4 .fails := by
  rw [C86_variant]
  refine .noVariant (u := 4) ⟨.refl, by rintro w (h | h | h) <;> cases h⟩ (fun ds h d hd => ?_)
  simp only [exWrap, Option.some.injEq, TypeDef.variant.injEq] at h
  subst h
  simp only [List.mem_cons, List.not_mem_nil, or_false] at hd
  rcases hd with rfl | rfl <;> simp
/-- A composite of one number, at `u8`: it is looked through. -/
example : EndsIn exWrap false (.mk (.composite (.unnamed [.mk (.primitive (.u128 ⟨7, by decide⟩)) ()])) () : Value Unit) 3 .ok := by
  rw [C86_composite]
  refine .direct (.other ?_ (fun u h => by cases h) (fun u n h => by cases h) (fun s o h => by cases h) rfl exWrap_seven) (by simp)
  rintro (⟨fs, h⟩ | ⟨ts, h⟩) <;> cases h

end SV
