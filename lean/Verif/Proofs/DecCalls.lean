import Verif.Model.DecCalls
import Verif.Proofs.SizeDec
import Verif.Proofs.Alloc
import Verif.Proofs.DecodeCtx
import Mathlib.Data.List.Forall2
/-
Lemmas for C88.
-/
namespace SV

variable {Id Γ E A : Type}

theorem enough_spec {f : Nat → Option A} (h : ∃ n, (f n).isSome) : ∃ r, f (enough f) = some r := by
  unfold enough
  rw [dif_pos h]
  exact Option.isSome_iff_exists.1 h.choose_spec

/-! ### Success -/

theorem loopCalls_ok {reg : Reg Id} {al : Nat → Bool} {ctx : Id → Γ} {n : Nat} {c : Bool} {calls : Id → List UInt8 → Nat}
    (hc : ∀ t bs v r, decN reg al ctx n c t bs = some (.ok (v, r)) → calls t bs = v.count) : ∀ (ts : List Id) bs vs r,
    decItems (decN reg al ctx n c) ts bs = some (.ok (vs, r)) → loopCalls (ts.map (fun u => (decN reg al ctx n c u, calls u))) bs = valuesCount vs := by
  intro ts
  induction ts with
  | nil => intro bs vs r h; simp only [decItems] at h; cases h; rfl
  | cons t ts ih =>
    intro bs vs r h
    rw [decItems] at h
    cases h1 : decN reg al ctx n c t bs with
    | none => rw [h1] at h; cases h
    | some o =>
      rw [h1] at h
      cases o with
      | panic => cases h
      | err e => cases h
      | ok x =>
        obtain ⟨v, r1⟩ := x
        simp only at h
        cases h2 : decItems (decN reg al ctx n c) ts r1 with
        | none => rw [h2] at h; cases h
        | some o2 =>
          rw [h2] at h
          cases o2 with
          | panic => cases h
          | err e => cases h
          | ok y =>
            obtain ⟨ws, r2⟩ := y
            cases h
            simp only [List.map_cons, loopCalls, h1, valuesCount]
            rw [hc _ _ _ _ h1, ih _ _ _ h2]

theorem decItems_length {dec : Id → List UInt8 → Option (Out DErr (Value Γ × List UInt8))} : ∀ (ts : List Id) bs vs r,
    decItems dec ts bs = some (.ok (vs, r)) → vs.length = ts.length := by
  intro ts
  induction ts with
  | nil => intro bs vs r h; simp only [decItems] at h; cases h; rfl
  | cons t ts ih =>
    intro bs vs r h
    rw [decItems] at h
    split at h
    · cases h
    · cases h
    · cases h
    · rename_i v r1 h1
      split at h
      · rename_i ws r2 h2
        cases h
        simp [ih _ _ _ h2]
      · rename_i o ho
        exact absurd h (by intro hh; exact ho _ _ hh)

/-- The values in a composite. -/
theorem composite_count {c : Composite Γ} {x : Γ} : (Value.mk (.composite c) x).count = 1 + valuesCount c.vals := by
  cases c with
  | named fs =>
    simp only [Value.count, Composite.vals]
    congr 1
    induction fs with
    | nil => rfl
    | cons p fs ih => obtain ⟨k, v⟩ := p; simp [fieldsCount, valuesCount, ih]
  | unnamed vs => rfl

theorem variant_count {c : Composite Γ} {n : Str} {x : Γ} : (Value.mk (.variant (.mk n c)) x).count = 1 + valuesCount c.vals := by
  rw [← composite_count (x := x)]
  cases c <;> rfl

theorem groupCalls_ok {reg : Reg Id} {al : Nat → Bool} {ctx : Id → Γ} {n : Nat} {c : Bool} {calls : Id → List UInt8 → Nat}
    (hc : ∀ t bs v r, decN reg al ctx n c t bs = some (.ok (v, r)) → calls t bs = v.count) {fs : List (Field Id)} {bs : List UInt8} {cs : Composite Γ} {r : List UInt8}
    (h : decComposite al (decN reg al ctx n c) fs bs = some (.ok (cs, r))) : groupCalls reg al ctx n c calls (fs.map (fun f => f.id)) bs = valuesCount cs.vals := by
  rw [decComposite_eq] at h
  unfold groupCalls
  cases ha : al fs.length with
  | false => rw [ha] at h; cases h
  | true =>
    rw [ha] at h
    simp only [Bool.not_true, Bool.false_eq_true, if_false] at h
    rw [List.length_map, ha, if_pos rfl]
    cases h1 : decItems (decN reg al ctx n c) (fs.map (fun f => f.id)) bs with
    | none => rw [h1] at h; cases h
    | some o =>
      rw [h1] at h
      cases o with
      | panic => cases h
      | err e => cases h
      | ok y =>
        obtain ⟨vs, r1⟩ := y
        cases h
        rw [loopCalls_ok hc _ _ _ _ h1]
        have hl := decItems_length _ _ _ _ h1
        split
        · simp only [Composite.vals]
          rw [List.map_snd_zip (by simp at *; omega)]
        · rfl

theorem groupCalls_items {reg : Reg Id} {al : Nat → Bool} {ctx : Id → Γ} {n : Nat} {c : Bool} {calls : Id → List UInt8 → Nat}
    (hc : ∀ t bs v r, decN reg al ctx n c t bs = some (.ok (v, r)) → calls t bs = v.count) {ts : List Id} {bs : List UInt8} {cs : Composite Γ} {r : List UInt8}
    (h : decUnnamed al (decN reg al ctx n c) ts bs = some (.ok (cs, r))) : groupCalls reg al ctx n c calls ts bs = valuesCount cs.vals := by
  unfold decUnnamed at h
  unfold groupCalls
  cases ha : al ts.length with
  | false => rw [ha] at h; cases h
  | true =>
    rw [ha] at h
    simp only [Bool.not_true, Bool.false_eq_true, if_false] at h
    rw [if_pos rfl]
    cases h1 : decItems (decN reg al ctx n c) ts bs with
    | none => rw [h1] at h; cases h
    | some o =>
      rw [h1] at h
      cases o with
      | panic => cases h
      | err e => cases h
      | ok y =>
        obtain ⟨vs, r1⟩ := y
        cases h
        rw [loopCalls_ok hc _ _ _ _ h1]
        rfl

theorem decCalls_ok (reg : Reg Id) (al : Nat → Bool) (ctx : Id → Γ) : ∀ n c t bs v r, decN reg al ctx n c t bs = some (.ok (v, r)) → decCalls reg al ctx n c t bs = v.count := by
  intro n
  induction n with
  | zero => intro c t bs v r h; cases h
  | succ n ih =>
    intro c t bs v r h
    rw [decN] at h
    rw [decCalls]
    cases hv : visit reg c t bs with
    | error e => rw [hv] at h; cases h
    | ok w =>
      obtain ⟨ty, c', s⟩ := w
      rw [hv] at h
      have key : ∀ {mk : Composite Γ → Value Γ} {o}, mkVal mk o = some (.ok (v, r)) → ∃ cs, o = some (.ok (cs, r)) ∧ v = mk cs := by
        intro mk o ho
        unfold mkVal at ho
        split at ho <;> cases ho
        exact ⟨_, rfl, rfl⟩
      cases s with
      | leaf l r =>
        simp only [Option.some.injEq, Out.ok.injEq, Prod.mk.injEq] at h
        rw [← h.1]
        cases l <;> rfl
      | items ids r0 =>
        obtain ⟨cs, ho, rfl⟩ := key h
        simp only
        rw [groupCalls_items (ih c') ho, composite_count]
      | composite fs r0 =>
        obtain ⟨cs, ho, rfl⟩ := key h
        simp only
        rw [groupCalls_ok (ih c') ho, composite_count]
      | variant nm fs r0 =>
        obtain ⟨cs, ho, rfl⟩ := key h
        simp only
        rw [groupCalls_ok (ih c') ho, variant_count]

/-! ### The depth does not matter -/

theorem loopCalls_stable {reg : Reg Id} {al : Nat → Bool} {ctx : Id → Γ} {n m : Nat} {c : Bool} (hnm : n ≤ m) {k k' : Id → List UInt8 → Nat}
    (hk : ∀ t bs r, decN reg al ctx n c t bs = some r → k t bs = k' t bs) : ∀ (ts : List Id) bs o,
    decItems (decN reg al ctx n c) ts bs = some o →
    loopCalls (ts.map (fun u => (decN reg al ctx n c u, k u))) bs = loopCalls (ts.map (fun u => (decN reg al ctx m c u, k' u))) bs := by
  intro ts
  induction ts with
  | nil => intro bs o h; rfl
  | cons t ts ih =>
    intro bs o h
    rw [decItems] at h
    cases h1 : decN reg al ctx n c t bs with
    | none => rw [h1] at h; cases h
    | some o1 =>
      rw [h1] at h
      have h1' := decN_mono reg al ctx hnm c _ _ _ h1
      simp only [List.map_cons, loopCalls, h1, h1', hk _ _ _ h1]
      cases o1 with
      | panic => rfl
      | err e => rfl
      | ok x =>
        obtain ⟨v, r1⟩ := x
        simp only at h ⊢
        cases h2 : decItems (decN reg al ctx n c) ts r1 with
        | none => rw [h2] at h; cases h
        | some o2 => rw [ih _ _ h2]

theorem groupCalls_stable {reg : Reg Id} {al : Nat → Bool} {ctx : Id → Γ} {n m : Nat} {c : Bool} (hnm : n ≤ m) {k k' : Id → List UInt8 → Nat}
    (hk : ∀ t bs r, decN reg al ctx n c t bs = some r → k t bs = k' t bs) {ts : List Id} {bs : List UInt8}
    (h : al ts.length = true → ∃ o, decItems (decN reg al ctx n c) ts bs = some o) :
    groupCalls reg al ctx n c k ts bs = groupCalls reg al ctx m c k' ts bs := by
  unfold groupCalls
  split
  · rename_i ha
    obtain ⟨o, h⟩ := h ha
    exact loopCalls_stable hnm hk _ _ _ h
  · rfl

theorem decItems_of_unnamed {al : Nat → Bool} {dec : Id → List UInt8 → Option (Out DErr (Value Γ × List UInt8))} {ts : List Id} {bs : List UInt8} {o}
    (h : decUnnamed al dec ts bs = some o) (ha : al ts.length = true) : ∃ o, decItems dec ts bs = some o := by
  unfold decUnnamed at h
  rw [ha] at h
  cases h1 : decItems dec ts bs with
  | none => rw [h1] at h; simp at h
  | some o => exact ⟨_, rfl⟩

theorem decItems_of_composite {al : Nat → Bool} {dec : Id → List UInt8 → Option (Out DErr (Value Γ × List UInt8))} {fs : List (Field Id)} {bs : List UInt8} {o}
    (h : decComposite al dec fs bs = some o) (ha : al (fs.map (fun f => f.id)).length = true) : ∃ o, decItems dec (fs.map (fun f => f.id)) bs = some o := by
  rw [decComposite_eq] at h
  rw [List.length_map] at ha
  rw [ha] at h
  cases h1 : decItems dec (fs.map (fun f => f.id)) bs with
  | none => rw [h1] at h; simp at h
  | some o => exact ⟨_, rfl⟩

theorem of_mkVal {mk : Composite Γ → Value Γ} {o x} (h : mkVal mk o = some x) : ∃ y, o = some y := by
  cases o with
  | none => cases h
  | some y => exact ⟨_, rfl⟩

theorem decCalls_stable (reg : Reg Id) (al : Nat → Bool) (ctx : Id → Γ) : ∀ n m, n ≤ m → ∀ c t bs o, decN reg al ctx n c t bs = some o →
    decCalls reg al ctx n c t bs = decCalls reg al ctx m c t bs := by
  intro n
  induction n with
  | zero => intro m _ c t bs o h; cases h
  | succ n ih =>
    intro m hm c t bs o h
    obtain ⟨m, rfl⟩ : ∃ k, m = k + 1 := ⟨m - 1, by omega⟩
    have hnm : n ≤ m := by omega
    rw [decN] at h
    rw [decCalls, decCalls]
    cases hv : visit reg c t bs with
    | error e => rfl
    | ok w =>
      obtain ⟨ty, c', s⟩ := w
      rw [hv] at h
      cases s with
      | leaf l r => rfl
      | items ids r0 =>
        obtain ⟨y, h⟩ := of_mkVal h
        simp only
        rw [groupCalls_stable hnm (fun t bs r hr => ih m hnm c' t bs r hr) (decItems_of_unnamed h)]
      | composite fs r0 =>
        obtain ⟨y, h⟩ := of_mkVal h
        simp only
        rw [groupCalls_stable hnm (fun t bs r hr => ih m hnm c' t bs r hr) (decItems_of_composite h)]
      | variant nm fs r0 =>
        obtain ⟨y, h⟩ := of_mkVal h
        simp only
        rw [groupCalls_stable hnm (fun t bs r hr => ih m hnm c' t bs r hr) (decItems_of_composite h)]

/-- The number of calls is that at any depth that suffices. -/
theorem decodeCalls_eq {ctx : Id → Γ} {reg : Reg Id} {al : Nat → Bool} {t : Id} {bs : List UInt8} {n : Nat} {o} (h : decN reg al ctx n false t bs = some o) :
    decodeCalls ctx reg al t bs = decCalls reg al ctx n false t bs := by
  obtain ⟨r, hr⟩ := enough_spec (f := fun n => decN reg al ctx n false t bs) ⟨n, by simp [h]⟩
  unfold decodeCalls
  rcases Nat.le_total n (enough (fun n => decN reg al ctx n false t bs)) with hle | hle
  · exact (decCalls_stable reg al ctx _ _ hle _ _ _ _ h).symm
  · exact decCalls_stable reg al ctx _ _ hle _ _ _ _ hr

theorem decodeFieldsCalls_eq {ctx : Id → Γ} {reg : Reg Id} {al : Nat → Bool} {fs : List (Field Id)} {bs : List UInt8} {n : Nat} {o} (h : decComposite al (decN reg al ctx n false) fs bs = some o) :
    decodeFieldsCalls ctx reg al fs bs = groupCalls reg al ctx n false (decCalls reg al ctx n false) (fs.map (fun f => f.id)) bs := by
  obtain ⟨r, hr⟩ := enough_spec (f := fun n => decComposite al (decN reg al ctx n false) fs bs) ⟨n, by simp [h]⟩
  unfold decodeFieldsCalls
  rcases Nat.le_total n (enough (fun n => decComposite al (decN reg al ctx n false) fs bs)) with hle | hle
  · exact (groupCalls_stable hle (fun t bs r hr => decCalls_stable reg al ctx _ _ hle _ t bs r hr) (decItems_of_composite h)).symm
  · exact groupCalls_stable hle (fun t bs r hr => decCalls_stable reg al ctx _ _ hle _ t bs r hr) (decItems_of_composite hr)

/-! ### The bound -/

mutual
theorem count_le_size : ∀ v : Value Γ, v.count ≤ v.size
  | .mk (.primitive p) _ => by cases p <;> simp [Value.count, Value.size]
  | .mk (.bitSequence _) _ => by simp [Value.count, Value.size]
  | .mk (.composite (.named fs)) _ => by have := fieldsCount_le fs; simp [Value.count, Value.size, this]
  | .mk (.composite (.unnamed vs)) _ => by have := valuesCount_le vs; simp [Value.count, Value.size, this]
  | .mk (.variant (.mk _ (.named fs))) _ => by have := fieldsCount_le fs; simp [Value.count, Value.size, this]
  | .mk (.variant (.mk _ (.unnamed vs))) _ => by have := valuesCount_le vs; simp [Value.count, Value.size, this]
theorem fieldsCount_le : ∀ fs : List (Str × Value Γ), fieldsCount fs ≤ fieldsSize fs
  | [] => by simp [fieldsCount]
  | (_, v) :: fs => by have := count_le_size v; have := fieldsCount_le fs; simp [fieldsCount, fieldsSize]; omega
theorem valuesCount_le : ∀ vs : List (Value Γ), valuesCount vs ≤ valuesSize vs
  | [] => by simp [valuesCount]
  | v :: vs => by have := count_le_size v; have := valuesCount_le vs; simp [valuesCount, valuesSize]; omega
end

theorem fits_le {R W k s b : Nat} (h : Fits R W k s b) : s ≤ frame W k + (2 * frame W (R + 1) + 8) * b := by
  unfold Fits at h
  omega

theorem Bounded.reach {reg : Reg Id} {R W : Nat} {ctx : Id → Γ} {canon : Prop} {i256 : Bytes32 → Primitive} {t w : Id}
    (h : Bounded reg R W ctx canon i256 t) (hw : Reach reg t w) : Bounded reg R W ctx canon i256 w := by
  have hr : ∀ u, Reach reg w u → Reach reg t u := fun u hu => Reach.trans hw hu
  exact ⟨fun u hu => h.rank u (hr u hu), fun u ts hu => h.tuple u ts (hr u hu), fun u fs hu => h.composite u fs (hr u hu),
    fun u ds d hu => h.variant u ds d (hr u hu), fun u x v hu => h.seq u x v (hr u hu), fun u x n v hu => h.array u x n v (hr u hu)⟩

/-- The children of a type are few, or cannot be had from no bytes. -/
theorem visit_width {reg : Reg Id} {R W : Nat} {ctx : Id → Γ} {c : Bool} {t : Id} {bs : List UInt8} {w : Visit Id} (hB : Bounded reg R W ctx False .u256 t)
    (h : visit reg c t bs = .ok w) : w.step.children.length ≤ W ∨ ∀ u ∈ w.step.children, ∀ v, ¬ Scale reg False .u256 ctx w.compact u v [] := by
  have compact : ∀ {u : Id} {s : DStep Id}, Reach reg t u → visitCompact reg u bs = .ok s → s.children.length ≤ W := by
    intro u s hu hv
    unfold visitCompact at hv
    split at hv
    · cases hv
    · rename_i p hp
      unfold leafStep at hv
      split at hv <;> cases hv
      simp [DStep.children]
    · rename_i fs hfs
      split at hv <;> cases hv
      have := hB.composite u fs hu hfs
      simpa [DStep.children] using this
    · rename_i ts hts
      split at hv <;> cases hv
      exact hB.tuple u ts hu hts
    · cases hv
  unfold visit at h
  split at h
  · cases hv : visitCompact reg t bs with
    | error e => rw [hv] at h; cases h
    | ok s => rw [hv] at h; cases h; exact .inl (compact .self hv)
  · split at h
    · rename_i x hx
      cases hv : visitCompact reg x bs with
      | error e => rw [hv] at h; cases h
      | ok s => rw [hv] at h; cases h; exact .inl (compact (.step .self hx (by simp [TypeDef.refs])) hv)
    · cases hv : visitPlain reg t bs with
      | error e => rw [hv] at h; cases h
      | ok s =>
        rw [hv] at h; cases h
        simp only
        unfold visitPlain at hv
        split at hv
        · cases hv
        · unfold leafStep at hv
          split at hv <;> cases hv
          exact .inl (by simp [DStep.children])
        · rename_i fs hfs
          cases hv
          exact .inl (by have := hB.composite t fs .self hfs; simpa [DStep.children] using this)
        · rename_i ts hts
          cases hv
          exact .inl (hB.tuple t ts .self hts)
        · rename_i u n hu
          cases hv
          refine .inr fun x hx v => ?_
          rw [(List.mem_replicate.1 hx).2]
          exact hB.array t u n v .self hu
        · rename_i u hu
          split at hv
          · cases hv
          · cases hv
            refine .inr fun x hx v => ?_
            rw [(List.mem_replicate.1 hx).2]
            exact hB.seq t u v .self hu
        · rename_i ds hds
          split at hv
          · cases hv
          · rename_i i r
            split at hv
            · cases hv
            · rename_i d hd
              cases hv
              exact .inl (by have := hB.variant t ds d .self hds (List.mem_of_find?_eq_some hd); simpa [DStep.children] using this)
        · split at hv <;> cases hv
          exact .inl (by simp [DStep.children])
        · cases hv

/-- A loop over parts of ranks up to `k`. -/
theorem loopCalls_few {reg : Reg Id} {al : Nat → Bool} {ctx : Id → Γ} {R W n k : Nat} {c : Bool} {calls : Id → List UInt8 → Nat} : ∀ (ts : List Id),
    (∀ t ∈ ts, ∀ bs, calls t bs ≤ frame W (reg.rank t) + (2 * frame W (R + 1) + 8) * bs.length) →
    (∀ t ∈ ts, ∀ bs v r, decN reg al ctx n c t bs = some (.ok (v, r)) → calls t bs = v.count) →
    (∀ t ∈ ts, Bounded reg R W ctx False .u256 t) → (∀ t ∈ ts, reg.rank t ≤ k) → ∀ bs,
    loopCalls (ts.map (fun u => (decN reg al ctx n c u, calls u))) bs ≤ ts.length * frame W k + (2 * frame W (R + 1) + 8) * bs.length := by
  intro ts
  induction ts with
  | nil => intro _ _ _ _ bs; simp [loopCalls]
  | cons t ts ih =>
    intro h1 h2 h3 h4 bs
    simp only [List.map_cons, loopCalls, List.length_cons]
    have hk := frame_le W (h4 t (by simp))
    have hb := h1 t (by simp) bs
    have hm : (ts.length + 1) * frame W k = ts.length * frame W k + frame W k := by ring
    split
    · rename_i v r hd
      obtain ⟨p, rfl, hp⟩ := decN_sound reg al ctx n _ _ _ _ _ hd
      have hc := h2 t (by simp) _ _ _ hd
      have hs := fits_le (scale_size (by simp) hp (h3 t (by simp)))
      have hv := count_le_size v
      have hi := ih (fun t ht => h1 t (by simp [ht])) (fun t ht => h2 t (by simp [ht])) (fun t ht => h3 t (by simp [ht])) (fun t ht => h4 t (by simp [ht])) r
      rw [List.length_append, Nat.mul_add]
      omega
    · omega

/-- A loop over any number of parts that take bytes each. -/
theorem loopCalls_many {reg : Reg Id} {al : Nat → Bool} {ctx : Id → Γ} {R W n k : Nat} {c : Bool} {calls : Id → List UInt8 → Nat} : ∀ (ts : List Id),
    (∀ t ∈ ts, ∀ bs, calls t bs ≤ frame W (reg.rank t) + (2 * frame W (R + 1) + 8) * bs.length) →
    (∀ t ∈ ts, ∀ bs v r, decN reg al ctx n c t bs = some (.ok (v, r)) → calls t bs = v.count) →
    (∀ t ∈ ts, Bounded reg R W ctx False .u256 t) → (∀ t ∈ ts, reg.rank t ≤ k) → (∀ t ∈ ts, ∀ v, ¬ Scale reg False .u256 ctx c t v []) → ∀ bs,
    loopCalls (ts.map (fun u => (decN reg al ctx n c u, calls u))) bs ≤ frame W k + (2 * frame W (R + 1) + 8) * bs.length := by
  intro ts
  induction ts with
  | nil => intro _ _ _ _ _ bs; simp [loopCalls]
  | cons t ts ih =>
    intro h1 h2 h3 h4 h5 bs
    simp only [List.map_cons, loopCalls]
    have hk := frame_le W (h4 t (by simp))
    have hb := h1 t (by simp) bs
    split
    · rename_i v r hd
      obtain ⟨p, rfl, hp⟩ := decN_sound reg al ctx n _ _ _ _ _ hd
      have hc := h2 t (by simp) _ _ _ hd
      have hp0 : p.length ≠ 0 := by
        intro h0
        rw [List.length_eq_zero_iff.1 h0] at hp
        exact h5 t (by simp) v hp
      have hs := fits_element (scale_size (by simp) hp (h3 t (by simp))) ((h3 t (by simp)).rank t .self) hp0
      have hv := count_le_size v
      have hi := ih (fun t ht => h1 t (by simp [ht])) (fun t ht => h2 t (by simp [ht])) (fun t ht => h3 t (by simp [ht])) (fun t ht => h4 t (by simp [ht]))
        (fun t ht => h5 t (by simp [ht])) r
      rw [List.length_append, Nat.mul_add]
      omega
    · omega

theorem decCalls_le (reg : Reg Id) (al : Nat → Bool) (ctx : Id → Γ) (R W : Nat) : ∀ n c t bs, Bounded reg R W ctx False .u256 t →
    decCalls reg al ctx n c t bs ≤ frame W (reg.rank t) + (2 * frame W (R + 1) + 8) * bs.length := by
  intro n
  induction n with
  | zero => intro c t bs _; simp [decCalls]
  | succ n ih =>
    intro c t bs hB
    have h1 := frame_pos W (reg.rank t)
    rw [decCalls]
    cases hv : visit reg c t bs with
    | error e => simp only; omega
    | ok w =>
      have group : 1 + groupCalls reg al ctx n w.compact (decCalls reg al ctx n w.compact) w.step.children w.step.bytes ≤
          frame W (reg.rank t) + (2 * frame W (R + 1) + 8) * bs.length := by
        unfold groupCalls
        split
        case isFalse => omega
        case isTrue =>
          have hr := visit_refs hv
          have a1 : ∀ u ∈ w.step.children, ∀ bs, decCalls reg al ctx n w.compact u bs ≤ frame W (reg.rank u) + (2 * frame W (R + 1) + 8) * bs.length :=
            fun u hu bs => ih _ u bs (hB.reach (hr u hu))
          have a2 : ∀ u ∈ w.step.children, ∀ bs v r, decN reg al ctx n w.compact u bs = some (.ok (v, r)) → decCalls reg al ctx n w.compact u bs = v.count :=
            fun u _ bs v r h => decCalls_ok reg al ctx n _ _ _ _ _ h
          have a3 : ∀ u ∈ w.step.children, Bounded reg R W ctx False .u256 u := fun u hu => hB.reach (hr u hu)
          have a4 : ∀ u ∈ w.step.children, reg.rank u ≤ R := fun u hu => hB.rank u (hr u hu)
          by_cases he : w.step.children = []
          · rw [he]; simp only [List.map_nil, loopCalls]; omega
          · obtain ⟨u0, hu0⟩ := List.exists_mem_of_ne_nil _ he
            have hc := visit_children hv
            have hstep := frame_step (W := W) (Nat.lt_succ_self R)
            simp only [Nat.succ_eq_add_one] at hstep
            have hW1 : (W + 1) * frame W R = W * frame W R + frame W R := by ring
            by_cases hlt : w.step.bytes.length < bs.length
            · have hm : (2 * frame W (R + 1) + 8) * (w.step.bytes.length + 1) ≤ (2 * frame W (R + 1) + 8) * bs.length := Nat.mul_le_mul_left _ hlt
              rw [Nat.mul_add] at hm
              rcases visit_width hB hv with hw | hw
              · have h2 := loopCalls_few w.step.children a1 a2 a3 a4 w.step.bytes
                have h3 : w.step.children.length * frame W R ≤ W * frame W R := Nat.mul_le_mul_right _ hw
                omega
              · have h2 := loopCalls_many w.step.children a1 a2 a3 a4 hw w.step.bytes
                omega
            · have hall : ∀ u ∈ w.step.children, w.step.bytes.length ≤ bs.length ∧ reg.rank u < reg.rank t := by
                intro u hu
                rcases hc u hu with h | h
                · exact absurd h hlt
                · exact h
              have hm : (2 * frame W (R + 1) + 8) * w.step.bytes.length ≤ (2 * frame W (R + 1) + 8) * bs.length := Nat.mul_le_mul_left _ (hall u0 hu0).1
              have a5 : ∀ u ∈ w.step.children, reg.rank u ≤ reg.rank t - 1 := fun u hu => by have := (hall u hu).2; omega
              have hk : reg.rank t - 1 < reg.rank t := by have := (hall u0 hu0).2; omega
              have hst := frame_step (W := W) hk
              have hW2 : (W + 1) * frame W (reg.rank t - 1) = W * frame W (reg.rank t - 1) + frame W (reg.rank t - 1) := by ring
              rcases visit_width hB hv with hw | hw
              · have h2 := loopCalls_few w.step.children a1 a2 a3 a5 w.step.bytes
                have h3 : w.step.children.length * frame W (reg.rank t - 1) ≤ W * frame W (reg.rank t - 1) := Nat.mul_le_mul_right _ hw
                omega
              · have h2 := loopCalls_many w.step.children a1 a2 a3 a5 hw w.step.bytes
                omega
      obtain ⟨ty, c', s⟩ := w
      cases s with
      | leaf l r => simp only; omega
      | items ids r => exact group
      | composite fs r => exact group
      | variant nm fs r => exact group

/-! ### The tracing decoder -/

/-- Parts that do no better, with no more calls. -/
def Under {E' A' : Type} (p : (List UInt8 → Option (Out E (A × List UInt8))) × (List UInt8 → Nat)) (q : (List UInt8 → Option (Out E' (A' × List UInt8))) × (List UInt8 → Nat)) : Prop :=
  (∀ bs, p.2 bs ≤ q.2 bs) ∧ ∀ bs v r, p.1 bs = some (.ok (v, r)) → ∃ v', q.1 bs = some (.ok (v', r))

theorem loopCalls_under {E' A' : Type} : ∀ {l : List ((List UInt8 → Option (Out E (A × List UInt8))) × (List UInt8 → Nat))}
    {l' : List ((List UInt8 → Option (Out E' (A' × List UInt8))) × (List UInt8 → Nat))}, List.Forall₂ Under l l' → ∀ bs, loopCalls l bs ≤ loopCalls l' bs
  | _, _, .nil, _ => Nat.le_refl _
  | (d, k) :: l, (d', k') :: l', .cons h t, bs => by
    rw [loopCalls, loopCalls]
    have h1 := h.1 bs
    simp only at h1
    cases hd : d bs with
    | none => simp only; omega
    | some o =>
      cases o with
      | panic => simp only; omega
      | err e => simp only; omega
      | ok x =>
        obtain ⟨v, r⟩ := x
        obtain ⟨v', hv'⟩ := h.2 bs v r hd
        simp only at hv'
        simp only [hv']
        have := loopCalls_under t r
        omega

theorem trCalls_le (reg : Reg Id) (al : Nat → Bool) (ctx : Id → Γ) : ∀ n c path t bs, trCalls reg al n c path t bs ≤ decCalls reg al ctx n c t bs := by
  intro n
  induction n with
  | zero => intro c path t bs; exact Nat.le_refl _
  | succ n ih =>
    intro c path t bs
    have one : ∀ c' p u, Under (trN reg al n c' p u, trCalls reg al n c' p u) (decN reg al ctx n c' u, decCalls reg al ctx n c' u) :=
      fun c' p u => ⟨fun bs => ih c' p u bs, fun bs v r h => (trN_sim reg al ctx n c' p u bs).ok v r h⟩
    have idx : ∀ c' path (ids : List Id), List.Forall₂ Under (ids.mapIdx (fun i u => (trN reg al n c' (path ++ [.index i]) u, trCalls reg al n c' (path ++ [.index i]) u)))
        (ids.map (fun u => (decN reg al ctx n c' u, decCalls reg al ctx n c' u))) := by
      intro c' path ids
      refine List.forall₂_iff_get.2 ⟨by simp, fun i h1 h2 => ?_⟩
      simp only [List.get_eq_getElem, List.getElem_mapIdx, List.getElem_map]
      exact one _ _ _
    have unn : ∀ c' path (ids : List Id) r, trUnnamedCalls reg al n c' path (trCalls reg al n c') ids r ≤ groupCalls reg al ctx n c' (decCalls reg al ctx n c') ids r := by
      intro c' path ids r
      unfold trUnnamedCalls groupCalls
      split
      · exact Nat.zero_le _
      · split
        · exact loopCalls_under (idx c' path ids) r
        · exact Nat.zero_le _
    have grp : ∀ c' path (fs : List (Field Id)) r, trGroupCalls reg al n c' path (trCalls reg al n c') fs r ≤ groupCalls reg al ctx n c' (decCalls reg al ctx n c') (fs.map (fun f => f.id)) r := by
      intro c' path fs r
      unfold trGroupCalls
      split
      · exact unn _ _ _ _
      · unfold groupCalls
        rw [List.length_map]
        split
        · refine loopCalls_under ?_ r
          refine List.forall₂_iff_get.2 ⟨by simp, fun i h1 h2 => ?_⟩
          simp only [List.get_eq_getElem, List.getElem_map]
          exact one _ _ _
        · exact Nat.zero_le _
    rw [trCalls, decCalls]
    cases hv : visit reg c t bs with
    | error e => exact Nat.le_refl _
    | ok w =>
      obtain ⟨ty, c', s⟩ := w
      cases s with
      | leaf l r => exact Nat.le_refl _
      | items ids r => exact Nat.add_le_add_left (unn _ _ _ _) 1
      | composite fs r => exact Nat.add_le_add_left (grp _ _ _ _) 1
      | variant nm fs r => exact Nat.add_le_add_left (grp _ _ _ _) 1

/-- A loop that comes to an end within the depth. -/
def LoopEnds : List ((List UInt8 → Option (Out E (A × List UInt8))) × (List UInt8 → Nat)) → List UInt8 → Prop
  | [], _ => True
  | (d, _) :: l, bs => match d bs with
    | none => False
    | some (.ok (_, r)) => LoopEnds l r
    | _ => True

/-- The same part with more depth. -/
def Deeper (p q : (List UInt8 → Option (Out E (A × List UInt8))) × (List UInt8 → Nat)) : Prop := ∀ bs o, p.1 bs = some o → q.1 bs = some o ∧ p.2 bs = q.2 bs

theorem loopCalls_deeper : ∀ {l l' : List ((List UInt8 → Option (Out E (A × List UInt8))) × (List UInt8 → Nat))}, List.Forall₂ Deeper l l' → ∀ bs, LoopEnds l bs →
    loopCalls l bs = loopCalls l' bs
  | _, _, .nil, _, _ => rfl
  | (d, k) :: l, (d', k') :: l', .cons h t, bs, he => by
    rw [loopCalls, loopCalls]
    unfold LoopEnds at he
    cases hd : d bs with
    | none => rw [hd] at he; exact he.elim
    | some o =>
      obtain ⟨h1, h2⟩ := h bs o hd
      simp only at h1 h2
      rw [h1, h2]
      cases o with
      | panic => rfl
      | err e => rfl
      | ok x =>
        rw [hd] at he
        simp only
        rw [loopCalls_deeper t _ he]

theorem trItems_ends {dec : TDec Id} {path : Path} {k : Path → Id → List UInt8 → Nat} : ∀ (ts : List Id) idx vals bs o, trItems dec path ts idx vals bs = some o →
    LoopEnds (ts.mapIdx (fun i u => (dec (path ++ [.index (idx + i)]) u, k (path ++ [.index (idx + i)]) u))) bs := by
  intro ts
  induction ts with
  | nil => intro idx vals bs o _; trivial
  | cons t ts ih =>
    intro idx vals bs o h
    rw [trItems] at h
    rw [List.mapIdx_cons]
    unfold LoopEnds
    simp only [Nat.add_zero]
    cases hd : dec (path ++ [.index idx]) t bs with
    | none => rw [hd] at h; cases h
    | some x =>
      rw [hd] at h
      cases x with
      | panic => trivial
      | err e => trivial
      | ok y =>
        obtain ⟨v, r⟩ := y
        have := ih (idx + 1) _ _ _ h
        simp only [Nat.add_assoc, Nat.add_comm 1] at this
        exact this

theorem trFields_ends {dec : TDec Id} {path : Path} {k : Path → Id → List UInt8 → Nat} : ∀ (fs : List (Field Id)) vals bs o, trNamedFields dec path fs vals bs = some o →
    LoopEnds (fs.map (fun f => (dec (path ++ [.field (f.name.getD "<unnamed>".toList)]) f.id, k (path ++ [.field (f.name.getD "<unnamed>".toList)]) f.id))) bs := by
  intro fs
  induction fs with
  | nil => intro vals bs o _; trivial
  | cons f fs ih =>
    intro vals bs o h
    rw [trNamedFields] at h
    rw [List.map_cons]
    unfold LoopEnds
    cases hd : dec (path ++ [.field (f.name.getD "<unnamed>".toList)]) f.id bs with
    | none => rw [hd] at h; cases h
    | some x =>
      rw [hd] at h
      cases x with
      | panic => trivial
      | err e => trivial
      | ok y => exact ih _ _ _ h

theorem trUnnamedCalls_stable {reg : Reg Id} {al : Nat → Bool} {n m : Nat} {c : Bool} {path : Path} {k k' : Path → Id → List UInt8 → Nat} (hnm : n ≤ m)
    (hk : ∀ p t bs o, trN reg al n c p t bs = some o → k p t bs = k' p t bs) {ts : List Id} {bs : List UInt8} {o} (h : trUnnamed al (trN reg al n c) path ts bs = some o) :
    trUnnamedCalls reg al n c path k ts bs = trUnnamedCalls reg al m c path k' ts bs := by
  unfold trUnnamedCalls
  unfold trUnnamed at h
  split
  · rfl
  · rename_i hlt
    rw [if_neg hlt] at h
    split
    · rename_i ha
      rw [ha] at h
      simp only [Bool.not_true, Bool.false_eq_true, if_false] at h
      have he := trItems_ends (k := k) _ _ _ _ _ h
      simp only [Nat.zero_add] at he
      refine loopCalls_deeper (List.forall₂_iff_get.2 ⟨by simp, fun i h1 h2 => ?_⟩) bs he
      simp only [List.get_eq_getElem, List.getElem_mapIdx]
      exact fun bs o ho => ⟨trN_mono reg al hnm c _ _ _ _ ho, hk _ _ _ _ ho⟩
    · rfl

theorem trGroupCalls_stable {reg : Reg Id} {al : Nat → Bool} {n m : Nat} {c : Bool} {path : Path} {k k' : Path → Id → List UInt8 → Nat} (hnm : n ≤ m)
    (hk : ∀ p t bs o, trN reg al n c p t bs = some o → k p t bs = k' p t bs) {fs : List (Field Id)} {bs : List UInt8} {o} (h : trGroupOf al (trN reg al n c) path fs bs = some o) :
    trGroupCalls reg al n c path k fs bs = trGroupCalls reg al m c path k' fs bs := by
  unfold trGroupCalls
  unfold trGroupOf at h
  split
  · rename_i hn
    rw [if_pos hn] at h
    exact trUnnamedCalls_stable hnm hk h
  · rename_i hn
    rw [if_neg hn] at h
    split
    · rename_i ha
      rw [ha] at h
      simp only [Bool.not_true, Bool.false_eq_true, if_false] at h
      have he := trFields_ends (k := k) _ _ _ _ h
      refine loopCalls_deeper (List.forall₂_iff_get.2 ⟨by simp, fun i h1 h2 => ?_⟩) bs he
      simp only [List.get_eq_getElem, List.getElem_map]
      exact fun bs o ho => ⟨trN_mono reg al hnm c _ _ _ _ ho, hk _ _ _ _ ho⟩
    · rfl

theorem trCalls_stable (reg : Reg Id) (al : Nat → Bool) : ∀ n m, n ≤ m → ∀ c p t bs o, trN reg al n c p t bs = some o →
    trCalls reg al n c p t bs = trCalls reg al m c p t bs := by
  intro n
  induction n with
  | zero => intro m _ c p t bs o h; cases h
  | succ n ih =>
    intro m hm c p t bs o h
    obtain ⟨m, rfl⟩ : ∃ k, m = k + 1 := ⟨m - 1, by omega⟩
    have hnm : n ≤ m := by omega
    rw [trN] at h
    rw [trCalls, trCalls]
    cases hv : visit reg c t bs with
    | error e => rfl
    | ok w =>
      obtain ⟨ty, c', s⟩ := w
      rw [hv] at h
      have ofMk : ∀ {x : Option (Out (TErr (Composite Id)) (Composite Id × List UInt8))} {ty o}, trMkVal ty x = some o → ∃ y, x = some y := by
        intro x ty o hx; cases x with
        | none => cases hx
        | some y => exact ⟨_, rfl⟩
      have ofMkV : ∀ {x : Option (Out (TErr (Composite Id)) (Composite Id × List UInt8))} {p ty nm o}, trMkVariant p ty nm x = some o → ∃ y, x = some y := by
        intro x p ty nm o hx; cases x with
        | none => cases hx
        | some y => exact ⟨_, rfl⟩
      cases s with
      | leaf l r => rfl
      | items ids r0 =>
        obtain ⟨y, h⟩ := ofMk h
        simp only
        rw [trUnnamedCalls_stable hnm (fun p t bs r hr => ih m hnm c' p t bs r hr) h]
      | composite fs r0 =>
        obtain ⟨y, h⟩ := ofMk h
        simp only
        rw [trGroupCalls_stable hnm (fun p t bs r hr => ih m hnm c' p t bs r hr) h]
      | variant nm fs r0 =>
        obtain ⟨y, h⟩ := ofMkV h
        simp only
        rw [trGroupCalls_stable hnm (fun p t bs r hr => ih m hnm c' p t bs r hr) h]

theorem traceCalls_eq {reg : Reg Id} {al : Nat → Bool} {t : Id} {bs : List UInt8} {n : Nat} {o} (h : trN reg al n false [] t bs = some o) :
    traceCalls reg al t bs = trCalls reg al n false [] t bs := by
  obtain ⟨r, hr⟩ := enough_spec (f := fun n => trN reg al n false [] t bs) ⟨n, by simp [h]⟩
  unfold traceCalls
  rcases Nat.le_total n (enough (fun n => trN reg al n false [] t bs)) with hle | hle
  · exact (trCalls_stable reg al _ _ hle _ _ _ _ _ h).symm
  · exact trCalls_stable reg al _ _ hle _ _ _ _ _ hr

/-! Where there is no group that is too large, the two are the same. -/

/-- Not an error for the limit. -/
def NoLimit {V B : Type} (o : Out (TErr V) B) : Prop := ∀ e, o = .err e → e.why ≠ .tooManyEntries

section
variable {reg : Reg Id} {al : Nat → Bool} {ctx : Id → Γ} {n : Nat} {c : Bool} {k : Path → Id → List UInt8 → Nat} {k' : Id → List UInt8 → Nat}

theorem trItems_same (hk : ∀ p t bs o, trN reg al n c p t bs = some o → NoLimit o → k p t bs = k' t bs) (path : Path) : ∀ (ts : List Id) idx vals bs o,
    trItems (trN reg al n c) path ts idx vals bs = some o → NoLimit o →
    loopCalls (ts.mapIdx (fun i u => (trN reg al n c (path ++ [.index (idx + i)]) u, k (path ++ [.index (idx + i)]) u))) bs =
      loopCalls (ts.map (fun u => (decN reg al ctx n c u, k' u))) bs := by
  intro ts
  induction ts with
  | nil => intro idx vals bs o _ _; rfl
  | cons t ts ih =>
    intro idx vals bs o h hl
    rw [trItems] at h
    rw [List.mapIdx_cons, List.map_cons, loopCalls, loopCalls]
    simp only [Nat.add_zero]
    have hs := trN_sim reg al ctx n c (path ++ [.index idx]) t bs
    cases hd : trN reg al n c (path ++ [.index idx]) t bs with
    | none => rw [hd] at h; cases h
    | some x =>
      rw [hd] at h
      cases x with
      | panic =>
        rw [hk _ _ _ _ hd nofun, hs.panic hd]
      | err e =>
        simp only [Option.some.injEq] at h
        have he : e.why ≠ .tooManyEntries := by
          have := hl _ h.symm
          rwa [why_withOuter] at this
        obtain ⟨e', he'⟩ := hs.err e hd he
        rw [hk _ _ _ _ hd (fun _ h => by cases h; exact he), he']
      | ok y =>
        obtain ⟨v, r⟩ := y
        obtain ⟨v', hv'⟩ := hs.ok v r hd
        have := ih (idx + 1) _ _ _ h hl
        simp only [Nat.add_assoc, Nat.add_comm 1] at this
        rw [hk _ _ _ _ hd nofun, hv']
        simp only
        rw [this]

theorem trFields_same (hk : ∀ p t bs o, trN reg al n c p t bs = some o → NoLimit o → k p t bs = k' t bs) (path : Path) : ∀ (fs : List (Field Id)) vals bs o,
    trNamedFields (trN reg al n c) path fs vals bs = some o → NoLimit o →
    loopCalls (fs.map (fun f => (trN reg al n c (path ++ [.field (f.name.getD "<unnamed>".toList)]) f.id, k (path ++ [.field (f.name.getD "<unnamed>".toList)]) f.id))) bs =
      loopCalls ((fs.map (fun f => f.id)).map (fun u => (decN reg al ctx n c u, k' u))) bs := by
  intro fs
  induction fs with
  | nil => intro vals bs o _ _; rfl
  | cons f fs ih =>
    intro vals bs o h hl
    rw [trNamedFields] at h
    rw [List.map_cons, List.map_cons, List.map_cons, loopCalls, loopCalls]
    have hs := trN_sim reg al ctx n c (path ++ [.field (f.name.getD "<unnamed>".toList)]) f.id bs
    cases hd : trN reg al n c (path ++ [.field (f.name.getD "<unnamed>".toList)]) f.id bs with
    | none => rw [hd] at h; cases h
    | some x =>
      rw [hd] at h
      cases x with
      | panic =>
        rw [hk _ _ _ _ hd nofun, hs.panic hd]
      | err e =>
        simp only [Option.some.injEq] at h
        have he : e.why ≠ .tooManyEntries := by
          have := hl _ h.symm
          rwa [why_withOuter] at this
        obtain ⟨e', he'⟩ := hs.err e hd he
        rw [hk _ _ _ _ hd (fun _ h => by cases h; exact he), he']
      | ok y =>
        obtain ⟨v, r⟩ := y
        obtain ⟨v', hv'⟩ := hs.ok v r hd
        have := ih _ _ _ h hl
        rw [hk _ _ _ _ hd nofun, hv']
        simp only
        rw [this]

theorem trUnnamed_same (hk : ∀ p t bs o, trN reg al n c p t bs = some o → NoLimit o → k p t bs = k' t bs) {path : Path} {ts : List Id} {bs : List UInt8} {o}
    (h : trUnnamed al (trN reg al n c) path ts bs = some o) (hl : NoLimit o) : trUnnamedCalls reg al n c path k ts bs = groupCalls reg al ctx n c k' ts bs := by
  unfold trUnnamed at h
  unfold trUnnamedCalls groupCalls
  split
  · rename_i hlt
    rw [if_pos hlt] at h
    cases h
    exact absurd rfl (hl _ rfl)
  · rename_i hlt
    rw [if_neg hlt] at h
    split
    · rename_i ha
      rw [ha] at h
      simp only [Bool.not_true, Bool.false_eq_true, if_false] at h
      have := trItems_same (ctx := ctx) hk path ts 0 [] bs o h hl
      simpa only [Nat.zero_add] using this
    · rfl

theorem trGroup_same (hk : ∀ p t bs o, trN reg al n c p t bs = some o → NoLimit o → k p t bs = k' t bs) {path : Path} {fs : List (Field Id)} {bs : List UInt8} {o}
    (h : trGroupOf al (trN reg al n c) path fs bs = some o) (hl : NoLimit o) : trGroupCalls reg al n c path k fs bs = groupCalls reg al ctx n c k' (fs.map (fun f => f.id)) bs := by
  unfold trGroupOf at h
  unfold trGroupCalls
  split
  · rename_i hn
    rw [if_pos hn] at h
    exact trUnnamed_same hk h hl
  · rename_i hn
    rw [if_neg hn] at h
    unfold groupCalls
    rw [List.length_map]
    split
    · rename_i ha
      rw [ha] at h
      simp only [Bool.not_true, Bool.false_eq_true, if_false] at h
      exact trFields_same (ctx := ctx) hk path fs [] bs o h hl
    · rfl

end

theorem trCalls_same (reg : Reg Id) (al : Nat → Bool) (ctx : Id → Γ) : ∀ n c p t bs o, trN reg al n c p t bs = some o → NoLimit o →
    trCalls reg al n c p t bs = decCalls reg al ctx n c t bs := by
  intro n
  induction n with
  | zero => intro c p t bs o h; cases h
  | succ n ih =>
    intro c p t bs o h hl
    rw [trN] at h
    rw [trCalls, decCalls]
    cases hv : visit reg c t bs with
    | error e => rfl
    | ok w =>
      obtain ⟨ty, c', s⟩ := w
      rw [hv] at h
      have ofMk : ∀ {x : Option (Out (TErr (Composite Id)) (Composite Id × List UInt8))} {ty}, trMkVal ty x = some o → ∃ y, x = some y ∧ NoLimit y := by
        intro x ty hx
        cases x with
        | none => cases hx
        | some y =>
          refine ⟨y, rfl, fun e he => ?_⟩
          subst he
          simp only [trMkVal, Option.some.injEq] at hx
          have := hl _ hx.symm
          cases e <;> exact this
      have ofMkV : ∀ {x : Option (Out (TErr (Composite Id)) (Composite Id × List UInt8))} {p ty nm}, trMkVariant p ty nm x = some o → ∃ y, x = some y ∧ NoLimit y := by
        intro x p ty nm hx
        cases x with
        | none => cases hx
        | some y =>
          refine ⟨y, rfl, fun e he => ?_⟩
          subst he
          simp only [trMkVariant, Option.some.injEq] at hx
          have := hl _ hx.symm
          rwa [why_withOuter] at this
      cases s with
      | leaf l r => rfl
      | items ids r0 =>
        obtain ⟨y, h, hy⟩ := ofMk h
        simp only
        rw [trUnnamed_same (fun p t bs r hr => ih c' p t bs r hr) h hy]
      | composite fs r0 =>
        obtain ⟨y, h, hy⟩ := ofMk h
        simp only
        rw [trGroup_same (fun p t bs r hr => ih c' p t bs r hr) h hy]
      | variant nm fs r0 =>
        obtain ⟨y, h, hy⟩ := ofMkV h
        simp only
        rw [trGroup_same (fun p t bs r hr => ih c' p t bs r hr) h hy]

mutual
theorem mapPrim_count (g : Primitive → Primitive) : ∀ v : Value Γ, (v.mapPrim g).count = v.count
  | .mk (.primitive p) _ => rfl
  | .mk (.bitSequence _) _ => rfl
  | .mk (.composite (.named fs)) _ => by have := mapPrimFields_count g fs; simp [Value.mapPrim, ValueDef.mapPrim, Composite.mapPrim, Value.count, this]
  | .mk (.composite (.unnamed vs)) _ => by have := mapPrimVals_count g vs; simp [Value.mapPrim, ValueDef.mapPrim, Composite.mapPrim, Value.count, this]
  | .mk (.variant (.mk _ (.named fs))) _ => by have := mapPrimFields_count g fs; simp [Value.mapPrim, ValueDef.mapPrim, Composite.mapPrim, Value.count, this]
  | .mk (.variant (.mk _ (.unnamed vs))) _ => by have := mapPrimVals_count g vs; simp [Value.mapPrim, ValueDef.mapPrim, Composite.mapPrim, Value.count, this]
theorem mapPrimFields_count (g : Primitive → Primitive) : ∀ fs : List (Str × Value Γ), fieldsCount (mapPrimFields g fs) = fieldsCount fs
  | [] => rfl
  | (_, v) :: fs => by have := mapPrim_count g v; have := mapPrimFields_count g fs; simp [mapPrimFields, fieldsCount, *]
theorem mapPrimVals_count (g : Primitive → Primitive) : ∀ vs : List (Value Γ), valuesCount (mapPrimVals g vs) = valuesCount vs
  | [] => rfl
  | v :: vs => by have := mapPrim_count g v; have := mapPrimVals_count g vs; simp [mapPrimVals, valuesCount, *]
end

/-- A loop over parts each of which has its bound. -/
theorem loopCalls_sum {reg : Reg Id} {al : Nat → Bool} {ctx : Id → Γ} {n : Nat} {c : Bool} {calls : Id → List UInt8 → Nat} {C : Id → Nat} : ∀ (ts : List Id),
    (∀ t ∈ ts, ∀ bs, calls t bs ≤ C t * (bs.length + 1)) → ∀ bs,
    loopCalls (ts.map (fun u => (decN reg al ctx n c u, calls u))) bs ≤ (ts.map C).sum * (bs.length + 1) := by
  intro ts
  induction ts with
  | nil => intro _ bs; simp [loopCalls]
  | cons t ts ih =>
    intro h bs
    simp only [List.map_cons, loopCalls, List.sum_cons]
    rw [Nat.add_mul]
    have h1 := h t (by simp) bs
    split
    · rename_i v r hd
      obtain ⟨p, rfl, -⟩ := decN_sound reg al ctx n _ _ _ _ _ hd
      have h2 := ih (fun t ht => h t (by simp [ht])) r
      have h3 : (ts.map C).sum * (r.length + 1) ≤ (ts.map C).sum * ((p ++ r).length + 1) := Nat.mul_le_mul_left _ (by simp)
      omega
    · omega

end SV
