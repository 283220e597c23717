import Verif.Proofs.EncodeRound
/-
Encoding of primitive values, and the main induction.
-/
namespace SV

variable {Id Γ Δ : Type}

theorem okay_fail_iff {k : EKind Id} {bs : List UInt8} : Okay (.fail k) bs ↔ False := ⟨fun h => okay_not_fails h (fails_fail k), False.elim⟩

theorem okay_uintK_iff {t : Id} {k : Nat} {n : Int} {bs : List UInt8} : Okay (encUintK t k n) bs ↔ 0 ≤ n ∧ IsLe k n.toNat bs := by
  unfold encUintK
  split
  · rename_i h
    rw [okay_write_iff, isLe_iff]
    exact ⟨fun e => ⟨h.1, by omega, e⟩, fun e => e.2.2⟩
  · rename_i h
    rw [okay_fail_iff, isLe_iff]
    exact ⟨False.elim, fun e => h ⟨e.1, by omega⟩⟩

theorem okay_intK_iff {t : Id} {k : Nat} {n : Int} {bs : List UInt8} : Okay (encIntK t k n) bs ↔ IsLeInt k n bs := by
  unfold encIntK
  split
  · rename_i h
    rw [okay_write_iff]
    exact ⟨fun e => by rw [e]; exact isLeInt_leBytesInt h.1 h.2, fun e => isLeInt_unique e (isLeInt_leBytesInt h.1 h.2)⟩
  · rename_i h
    rw [okay_fail_iff]
    exact ⟨False.elim, fun e => h ⟨e.2.1, e.2.2.1⟩⟩

theorem okay_compactK_iff {t : Id} {k : Nat} (hk : k ≤ 16) {n : Int} {bs : List UInt8} :
    Okay (encCompactK t k n) bs ↔ 0 ≤ n ∧ n.toNat < 256 ^ k ∧ IsCompact n.toNat bs := by
  have hp : (256 : Nat) ^ k ≤ 2 ^ 128 := by
    calc (256 : Nat) ^ k ≤ 256 ^ 16 := Nat.pow_le_pow_right (by decide) hk
      _ = 2 ^ 128 := by decide
  unfold encCompactK
  split
  · rename_i h
    have : n.toNat < 256 ^ k := by omega
    rw [okay_write_iff, isCompact_iff (by omega)]
    exact ⟨fun e => ⟨h.1, this, e⟩, fun e => e.2.2⟩
  · rename_i h
    rw [okay_fail_iff]
    exact ⟨False.elim, fun e => h ⟨e.1, by omega⟩⟩

theorem uintType_le {p : Prim} {k : Nat} (h : UintType p k) : k ≤ 16 := by cases h <;> decide

theorem okay_num_iff {reg : Reg Id} {cc : Bool} {n : Int} {t : Id} {bs : List UInt8} :
    Okay (encNum reg cc n t) bs ↔ NumAt reg cc (findSingle reg t).1 n bs := by
  have huint : ∀ {p k}, reg.resolve (findSingle reg t).1 = some (.primitive p) → UintType p k →
      (0 ≤ n ∧ IsLe k n.toNat bs) → NumAt reg cc (findSingle reg t).1 n bs := by
    intro p k h1 h2 h3
    have : n = (n.toNat : Int) := by omega
    rw [this]; exact .uint h1 h2 h3.2
  have hcomp : ∀ {w p k}, reg.resolve (findSingle reg t).1 = some (.compact w) → reg.resolve (findSingle reg w).1 = some (.primitive p) → UintType p k →
      (0 ≤ n ∧ n.toNat < 256 ^ k ∧ IsCompact n.toNat bs) → NumAt reg cc (findSingle reg t).1 n bs := by
    intro w p k h1 h2 h3 h4
    have : n = (n.toNat : Int) := by omega
    rw [this]; exact .compact h1 (findSingle_innermost reg w) h2 h3 h4.2.1 h4.2.2
  constructor
  · intro h
    unfold encNum at h
    simp only at h
    split at h <;> rename_i hr
    · exact huint hr .u8 (okay_uintK_iff.1 h)
    · exact huint hr .u16 (okay_uintK_iff.1 h)
    · exact huint hr .u32 (okay_uintK_iff.1 h)
    · exact huint hr .u64 (okay_uintK_iff.1 h)
    · exact huint hr .u128 (okay_uintK_iff.1 h)
    · exact .int hr .i8 (okay_intK_iff.1 h)
    · exact .int hr .i16 (okay_intK_iff.1 h)
    · exact .int hr .i32 (okay_intK_iff.1 h)
    · exact .int hr .i64 (okay_intK_iff.1 h)
    · exact .int hr .i128 (okay_intK_iff.1 h)
    · split at h
      · rename_i hc
        have h := okay_uintK_iff.1 h
        have : n = (n.toNat : Int) := by omega
        rw [this]; exact .char hr hc h.2
      · exact (okay_fail_iff.1 h).elim
    · split at h <;> rename_i hr'
      · exact hcomp hr hr' .u8 ((okay_compactK_iff (by decide)).1 h)
      · exact hcomp hr hr' .u16 ((okay_compactK_iff (by decide)).1 h)
      · exact hcomp hr hr' .u32 ((okay_compactK_iff (by decide)).1 h)
      · exact hcomp hr hr' .u64 ((okay_compactK_iff (by decide)).1 h)
      · exact hcomp hr hr' .u128 ((okay_compactK_iff (by decide)).1 h)
      · exact (okay_fail_iff.1 h).elim
    · exact (okay_fail_iff.1 h).elim
    · exact (okay_fail_iff.1 h).elim
  · intro h
    unfold encNum
    simp only
    cases h with
    | uint h1 h2 h3 => rw [h1]; cases h2 <;> exact okay_uintK_iff.2 ⟨by omega, by simpa using h3⟩
    | int h1 h2 h3 => rw [h1]; cases h2 <;> exact okay_intK_iff.2 h3
    | char h1 h2 h3 => rw [h1]; simp only [h2, if_true]; exact okay_uintK_iff.2 ⟨by omega, by simpa using h3⟩
    | compact h1 hi h2 h3 h4 h5 =>
      rw [h1]
      simp only
      rw [findSingle_iff.2 hi, h2]
      cases h3 <;> exact (okay_compactK_iff (by decide)).2 ⟨by omega, by simpa using h4, by simpa using h5⟩

theorem okay_bool_iff {reg : Reg Id} {b : Bool} {t : Id} {bs : List UInt8} :
    Okay (encBool reg b t) bs ↔ reg.resolve (findSingle reg t).1 = some (.primitive .bool) ∧ bs = [if b then 1 else 0] := by
  unfold encBool
  simp only
  split <;> rename_i hr
  · rw [okay_write_iff, hr]; simp
  · rw [okay_fail_iff, hr]; simp
  · rw [okay_fail_iff]
    exact ⟨False.elim, fun h => by simp_all⟩

theorem okay_str_iff {reg : Reg Id} {s : Str} {t : Id} {bs : List UInt8} :
    Okay (encStr reg s t) bs ↔ reg.resolve (findSingle reg t).1 = some (.primitive .str) ∧ bs = compactEnc (utf8Bytes s).length ++ utf8Bytes s := by
  unfold encStr
  simp only
  split <;> rename_i hr
  · rw [okay_write_iff, hr]; simp
  · rw [okay_fail_iff, hr]; simp
  · rw [okay_fail_iff]
    exact ⟨False.elim, fun h => by simp_all⟩

theorem okay_bits_iff {reg : Reg Id} {b : List Bool} {t : Id} {bs : List UInt8} :
    Okay (encBits reg b t) bs ↔ ∃ s o, reg.resolve (findSingle reg t).1 = some (.bitSequence s o) ∧ bs = bitsEnc s o b := by
  unfold encBits
  simp only
  split <;> rename_i hr
  · rw [okay_write_iff, hr]
    exact ⟨fun h => ⟨_, _, rfl, h⟩, by rintro ⟨s, o, h, h'⟩; cases h; exact h'⟩
  · rw [okay_fail_iff, hr]; simp
  · rw [okay_fail_iff]
    refine ⟨False.elim, ?_⟩
    rintro ⟨s, o, h, -⟩
    rename_i hn
    rw [h] at hr
    exact hn s o (by rw [← Option.some.inj hr])

theorem bitsEnc_spec {s : BitStore} {o : BitOrder} {b : List Bool} {p q : List UInt8} (hp : IsCompact b.length p) (hl : b.length < 2 ^ 32) (hq : IsBits True s o b q) :
    p ++ q = bitsEnc s o b := by
  unfold bitsEnc
  rw [Nat.mod_eq_of_lt hl, (isCompact_iff (by omega)).1 hp, isBits_unique hq (isBits_encWords True s o b)]

/-! ### The main induction -/

theorem encodable_ref {reg : Reg Id} {cc : Bool} {t u : Id} {d : TypeDef Id} (h : Encodable reg cc t) (ht : reg.resolve t = some d) (hu : u ∈ d.refs) :
    Encodable reg cc u := by
  intro w hw
  refine h w ?_
  clear h
  induction hw with
  | self => exact .step .self ht hu
  | step _ h1 h2 ih => exact .step ih h1 h2

theorem enc_variant (reg : Reg Id) (cc : Bool) (n : Str) (c : Composite Γ) (x : Γ) (t : Id) :
    (Value.mk (.variant (.mk n c)) x).encode reg cc t = encVariant reg n (c.encChildren reg cc) t := by
  rw [Value.encode, ValueDef.encode]

theorem enc_composite (reg : Reg Id) (cc : Bool) (c : Composite Γ) (x : Γ) (t : Id) :
    (Value.mk (.composite c) x).encode reg cc t = encComposite reg (c.encChildren reg cc) t := by
  rw [Value.encode, ValueDef.encode]

theorem enc_prim (reg : Reg Id) (cc : Bool) (p : Primitive) (x : Γ) (t : Id) :
    (Value.mk (.primitive p) x).encode reg cc t = encPrimitive reg cc p t := by
  rw [Value.encode, ValueDef.encode]

theorem enc_bits (reg : Reg Id) (cc : Bool) (b : List Bool) (x : Γ) (t : Id) :
    (Value.mk (.bitSequence b) x).encode reg cc t = encBits reg b t := by
  rw [Value.encode, ValueDef.encode]

theorem children_length {reg : Reg Id} {cc : Bool} {fs : List (Field Id)} {vs : List (Value Γ)} {cs : Composite Γ} (h : HasShape fs vs cs) (hl : vs.length = fs.length) :
    (cs.encChildren reg cc).length = fs.length := by
  cases h with
  | @named names h1 h2 =>
    have : names.length = fs.length := by simpa using (congrArg List.length h2).symm
    rw [Composite.encChildren, encNamed_eq]; simp [hl, this]
  | unnamed h1 => rw [Composite.encChildren, encUnnamed_eq]; simp [hl]

theorem single_length {reg : Reg Id} {t u : Id} (h : SingleEntry reg t u) : (∃ f, reg.resolve t = some (.composite [f]) ∧ u = f.id) ∨ reg.resolve t = some (.tuple [u]) ∨
    reg.resolve t = some (.array u 1) := by
  cases h with
  | composite h => exact .inl ⟨_, h, rfl⟩
  | tuple h => exact .inr (.inl h)
  | array h => exact .inr (.inr h)

/-- What is shown about the items of a composite. -/
def RTc (reg : Reg Id) (cc : Bool) (c : Bool) (t : Id) (v : Value Γ) (bs : List UInt8) : Prop :=
  (c = false → RT reg cc t v bs) ∧
  (c = true → ∀ x w, reg.resolve (findSingle reg x).1 = some (.compact w) → (findSingle reg w).1 = (findSingle reg t).1 → Okay (v.encode reg cc x) bs)

/-- One value in a wrapper, read as compact. -/
theorem RTc.one {reg : Reg Id} {cc : Bool} {t u : Id} {v : Value Γ} {bs : List UInt8} {cs : List (Child Id)} (hw : SingleEntry reg t u) (ih : RTc reg cc true u v bs)
    (hg : AppendOnlyAll cs) {nm : Option Str} (hcs : cs = [⟨nm, v.encode reg cc, bitOf v⟩]) :
    ∀ x w, reg.resolve (findSingle reg x).1 = some (.compact w) → (findSingle reg w).1 = (findSingle reg t).1 → Okay (encComposite reg cs x) bs := by
  intro x w h1 h2
  subst hcs
  refine okay_one hg h1 trivial ?_
  intro y hy
  refine ih.2 rfl y w (by rw [hy, h1]) ?_
  rw [h2, findSingle_step hw]

theorem simple_one {reg : Reg Id} {cc : Bool} {t u : Id} {v : Value Γ} {bs : List UInt8} {cs : List (Child Id)} (hw : SingleEntry reg t u) (ih : RT reg cc u v bs)
    (hg : AppendOnlyAll cs) {nm : Option Str} (hcs : cs = [⟨nm, v.encode reg cc, bitOf v⟩]) :
    Simple reg t → ∀ x, (findSingle reg x).1 = (findSingle reg t).1 → Okay (encComposite reg cs x) bs := by
  intro hs x hx
  subst hcs
  have hfs : (findSingle reg t).1 = (findSingle reg u).1 := by rw [findSingle_step hw]
  obtain ⟨d, h1, h2⟩ := simple_iff.1 ((simple_congr hx).2 hs)
  exact okay_one hg h1 h2 (fun y hy => ih.simple ((simple_congr hfs).1 hs) y (by rw [hy, hx, hfs]))

theorem rt_all (reg : Reg Id) (cc : Bool) (ctx : Id → Γ) {c t v bs} (h : Scale reg True .u256 ctx c t v bs) : Encodable reg cc t → RTc reg cc c t v bs := by
  have toR : ∀ {ts vs bs}, All3 (RTc reg cc false) ts vs bs → All3 (fun t (v : Value Γ) bs => RT reg cc t v bs) ts vs bs :=
    fun h => h.imp (fun t v bs h => h.1 rfl)
  refine Scale.rec (motive_1 := fun c t v bs _ => Encodable reg cc t → RTc reg cc c t v bs)
    (motive_2 := fun c ts vs bs _ => (∀ t ∈ ts, Encodable reg cc t) → All3 (RTc reg cc c) ts vs bs)
    ?_ ?_ ?_ ?_ ?_ ?_ ?_ ?_ ?_ ?_ ?_ ?_ ?_ ?_ ?_ ?_ ?_ h
  · intro t b ht he
    refine ⟨fun _ => RT.leaf ht trivial (fun x hx => ?_), fun h => by cases h⟩
    rw [enc_prim]; exact okay_bool_iff.2 ⟨by rw [hx, ht], rfl⟩
  · intro t ch bs ht hb he
    refine ⟨fun _ => RT.leaf ht trivial (fun x hx => ?_), fun h => by cases h⟩
    rw [enc_prim]; exact okay_num_iff.2 (.char (by rw [hx, ht]) ((he t .self).char ht) hb)
  · intro t s p ht hp hl hl' he
    refine ⟨fun _ => RT.leaf ht trivial (fun x hx => ?_), fun h => by cases h⟩
    rw [enc_prim]; exact okay_str_iff.2 ⟨by rw [hx, ht], by rw [(isCompact_iff (by omega)).1 hp]⟩
  · intro t p k n bs ht hk hb he
    refine ⟨fun _ => RT.leaf ht trivial (fun x hx => ?_), fun h => by cases h⟩
    rw [enc_prim]; exact okay_num_iff.2 (.uint (by rw [hx, ht]) hk hb)
  · intro t p k n bs ht hk hb he
    refine ⟨fun _ => RT.leaf ht trivial (fun x hx => ?_), fun h => by cases h⟩
    rw [enc_prim]; exact okay_num_iff.2 (.int (by rw [hx, ht]) hk hb)
  · intro t b ht he; exact ((he t .self).no_u256 ht).elim
  · intro t b ht he; exact ((he t .self).no_i256 ht).elim
  · intro t u v bs ht _ ih he
    have ih := ih (encodable_ref he ht (by simp [TypeDef.refs]))
    refine ⟨fun _ => RT.leaf ht trivial (fun x hx => ?_), fun h => by cases h⟩
    exact ih.2 rfl x u (by rw [hx, ht]) rfl
  · intro t p k n bs ht hk hn hb he
    refine ⟨fun h => (by cases h), fun _ x w h1 h2 => ?_⟩
    rw [enc_prim]
    refine okay_num_iff.2 (.compact h1 (findSingle_innermost reg w) (p := p) ?_ hk hn hb)
    rw [h2, findSingle_done (simple_not_single ht trivial), ht]
  · -- sequence
    intro t u vs p bs ht hp hl hl' _ ih he
    have ih := toR (ih (fun w hw => by rw [List.eq_of_mem_replicate hw]; exact encodable_ref he ht (by simp [TypeDef.refs])))
    have hns : ∀ w, ¬ SingleEntry reg t w := fun w h => by
      rcases single_length h with ⟨f, h, -⟩ | h | h <;> rw [ht] at h <;> cases h
    refine ⟨fun _ => RT.container ht (fun h => h) hns ?_ ?_ (fun _ _ h => by cases h), fun h => by cases h⟩
    · rw [enc_unnamed]
      refine okay_do_composite (append_vals reg cc vs) ?_
      unfold doEncodeComposite
      rw [ht]; simp only [List.length_map]
      refine okay_seq ?_ (okay_items (fun t v bs h => h.okay) 0 ih (fun w hw => List.eq_of_mem_replicate hw))
      rw [okay_write_iff, Nat.mod_eq_of_lt (hl' trivial), (isCompact_iff (by omega)).1 hp]
    · intro e hue hs x hx q hq
      cases hue
      rw [enc_unnamed] at hq
      obtain ⟨d, h1, h2⟩ := simple_iff.1 ((simple_congr hx).2 hs)
      by_cases h1l : vs.length = 1
      · rw [h1l] at ih hp
        obtain ⟨v, rfl, hv⟩ := ih.one
        obtain ⟨y, hy, ho⟩ := okay_one_inv (append_vals reg cc [v]) h1 h2 hq
        have := okay_unique ho (hv.simple hs y (by rw [hy, hx]))
        subst this
        rw [(isCompact_iff (by omega)).1 hp]; rfl
      · refine (okay_not_fails hq (fails_not_one (append_vals reg cc vs) ?_ (by simpa using h1l) h1 h2)).elim
        intro c hc
        obtain ⟨v, -, rfl⟩ := List.mem_map.1 hc
        rfl
  · -- array
    intro t u n vs bs ht _ ih he
    have ih := toR (ih (fun w hw => by rw [List.eq_of_mem_replicate hw]; exact encodable_ref he ht (by simp [TypeDef.refs])))
    have hl := ih.length
    rw [List.length_replicate] at hl
    have ho : Okay ((Value.mk (.composite (.unnamed vs)) (ctx t)).encode reg cc t) bs := by
      rw [enc_unnamed]
      refine okay_do_composite (append_vals reg cc vs) ?_
      unfold doEncodeComposite
      rw [ht]; simp only [List.length_map]
      rw [if_neg (by simp [hl])]
      exact okay_items (fun t v bs h => h.okay) 0 ih (fun w hw => List.eq_of_mem_replicate hw)
    refine ⟨fun _ => ?_, fun h => by cases h⟩
    by_cases hn : n = 1
    · subst hn
      obtain ⟨v, rfl, hv⟩ := ih.one
      have hsk : skip reg t = t := skip_done (fun w h => by cases h with
        | composite h => rw [ht] at h; cases h
        | tuple h => rw [ht] at h; cases h)
      refine ⟨fun hs x hx => ?_, ho, fun _ => by rw [hsk]; exact ho, fun e h => ?_, fun s o h => ?_, ⟨_, by rw [hsk, ht]⟩⟩
      · rw [enc_unnamed]
        exact simple_one (.array ht) hv (append_vals reg cc [v]) rfl hs x hx
      · rw [hsk, ht] at h; cases h
      · rw [hsk, ht] at h; cases h
    · refine RT.container ht (fun h => h) ?_ ho (fun e h => by cases h) (fun s o h => by cases h)
      intro w h
      rcases single_length h with ⟨f, h, -⟩ | h | h <;> rw [ht] at h <;> cases h
      exact hn rfl
  · -- tuple
    intro c t ts vs bs ht hc _ ih he
    have ih := ih (fun w hw => encodable_ref he ht hw)
    by_cases h1 : ts.length = 1
    · obtain ⟨u, rfl⟩ := List.length_eq_one_iff.1 h1
      obtain ⟨v, rfl, hv⟩ := ih.one
      refine ⟨fun h => RT.wrapper (.tuple ht) (he t .self) (hv.1 h), fun h x w h1 h2 => ?_⟩
      subst h
      rw [enc_unnamed]
      exact RTc.one (.tuple ht) hv (append_vals reg cc [v]) rfl x w h1 h2
    · refine ⟨fun hcf => ?_, fun h => (h1 (hc h)).elim⟩
      subst hcf
      have ih := toR ih
      have hl := ih.length
      have hns : ∀ w, ¬ SingleEntry reg t w := by
        intro w h
        rcases single_length h with ⟨f, h, -⟩ | h | h <;> rw [ht] at h <;> cases h
        exact h1 rfl
      refine RT.container ht (fun h => h) hns ?_ (fun e h => by cases h) (fun s o h => by cases h)
      rw [enc_unnamed]
      refine okay_do_composite (append_vals reg cc vs) ?_
      unfold doEncodeComposite
      rw [ht]; simp only
      unfold encCompositeAsType
      rw [skip_done (not_wraps_of hns), ht]; simp only
      split
      · rename_i heq
        have := congrArg List.length heq
        rw [List.length_map, hl] at this
        exact (h1 this).elim
      · have hsh : HasShape (ts.map (fun t => (⟨none, t⟩ : Field Id))) vs (.unnamed vs) := by
          refine .unnamed ?_
          cases ts with
          | nil => exact .inl rfl
          | cons t ts => exact .inr ⟨_, by simp; exact .inl rfl, rfl⟩
        have := okay_fieldsTo (reg := reg) (cc := cc) (R := RT reg cc) (fun t v bs h => h.okay) hsh ?_ (by rw [List.map_map]; simpa [Function.comp_def] using ih)
        · rwa [Composite.encChildren, encUnnamed_eq] at this
        · intro names hn
          cases ts with
          | nil => cases names with
            | nil => exact List.nodup_nil
            | cons n ns => cases hn
          | cons t ts => cases names with
            | nil => cases hn
            | cons n ns => simp at hn
  · -- composite
    intro c t fs vs cs bs ht hc _ hs ih he
    have ih := ih (fun w hw => encodable_ref he ht hw)
    have hgc := append_children reg cc cs
    by_cases h1 : fs.length = 1
    · obtain ⟨⟨nm, u⟩, rfl⟩ := List.length_eq_one_iff.1 h1
      obtain ⟨v, rfl, hv⟩ := ih.one
      have hse : SingleEntry reg t u := .composite (f := ⟨nm, u⟩) ht
      cases nm with
      | none =>
        have : cs = .unnamed [v] := by
          cases hs with
          | @named names h1 h2 => cases names <;> simp at h2
          | unnamed _ => rfl
        subst this
        refine ⟨fun h => RT.wrapper (.composite ht) (he t .self) (hv.1 h), fun h x w h1 h2 => ?_⟩
        subst h
        rw [enc_unnamed]
        exact RTc.one hse hv (append_vals reg cc [v]) rfl x w h1 h2
      | some s =>
        have : cs = .named [(s, v)] := by
          cases hs with
          | @named names h1 h2 =>
            cases names with
            | nil => simp at h2
            | cons n ns =>
              simp only [List.map_cons, List.map_nil, List.cons.injEq, Option.some.injEq] at h2
              cases ns with
              | nil => rw [h2.1]; rfl
              | cons _ _ => simp at h2
          | unnamed h =>
            rcases h with h | ⟨f, h, h'⟩
            · cases h
            · simp only [List.mem_singleton] at h; rw [h] at h'; cases h'
        subst this
        have hcs : ([(s, v)] : List (Str × Value Γ)).map (childNamed reg cc) = [⟨some s, v.encode reg cc, bitOf v⟩] := rfl
        refine ⟨fun hcf => ?_, fun h x w h1 h2 => ?_⟩
        · subst hcf
          have hv1 := hv.1 rfl
          have hsk : skip reg t = t := skip_done (fun w h => by cases h with
            | composite h => rw [ht] at h; cases h
            | tuple h => rw [ht] at h; cases h)
          have ho : Okay ((Value.mk (.composite (.named [(s, v)])) (ctx t)).encode reg cc t) bs := by
            rw [enc_composite]
            refine okay_do_composite hgc ?_
            unfold doEncodeComposite
            rw [ht]; simp only
            unfold encCompositeAsType
            rw [hsk, ht]; simp only
            split
            · rename_i heq _; rw [Composite.encChildren, encNamed_eq] at heq; simp [childNamed] at heq
            · exact okay_fieldsTo (fun t v bs h => h.okay) hs ((he t .self).fields _ ht) (toR ih)
          refine ⟨fun hs x hx => ?_, ho, fun _ => by rw [hsk]; exact ho, fun e h => ?_, fun s o h => ?_, ⟨_, by rw [hsk, ht]⟩⟩
          · rw [enc_named]
            exact simple_one hse hv1 (append_fields reg cc _) hcs hs x hx
          · rw [hsk, ht] at h; cases h
          · rw [hsk, ht] at h; cases h
        · subst h
          rw [enc_named]
          exact RTc.one hse hv (append_fields reg cc _) hcs x w h1 h2
    · refine ⟨fun hcf => ?_, fun h => (h1 (hc h)).elim⟩
      subst hcf
      have ih := toR ih
      have hl := ih.length
      rw [List.length_map] at hl
      have hns : ∀ w, ¬ SingleEntry reg t w := by
        intro w h
        rcases single_length h with ⟨f, h, -⟩ | h | h <;> rw [ht] at h <;> cases h
        exact h1 rfl
      refine RT.container ht (fun h => h) hns ?_ (fun e h => by cases h) (fun s o h => by cases h)
      rw [enc_composite]
      refine okay_do_composite hgc ?_
      unfold doEncodeComposite
      rw [ht]; simp only
      unfold encCompositeAsType
      rw [skip_done (not_wraps_of hns), ht]; simp only
      split
      · rename_i heq
        have := congrArg List.length heq
        rw [children_length hs hl] at this
        exact (h1 this).elim
      · exact okay_fieldsTo (fun t v bs h => h.okay) hs ((he t .self).fields _ ht) ih
  · -- variant
    intro t ds d vs cs bs ht hd _ hs ih he
    have hmem := List.mem_of_find?_eq_some hd
    have ih := toR (ih (fun w hw => encodable_ref he ht (by
      simp only [TypeDef.refs, List.mem_flatMap]; exact ⟨d, hmem, hw⟩)))
    refine ⟨fun _ => RT.leaf ht trivial (fun x hx => ?_), fun h => by cases h⟩
    obtain ⟨hnd, hfo⟩ := (he t .self).variants ds ht
    rw [enc_variant]
    unfold encVariant
    rw [hx, ht]; simp only
    have hfind : ds.find? (fun e => e.name == d.name) = some d := by
      refine find?_unique hmem (by simp) ?_
      intro b hb hp
      have hp : b.name = d.name := by simpa using hp
      obtain ⟨i, hi, h1⟩ := List.getElem_of_mem hb
      obtain ⟨j, hj, h2⟩ := List.getElem_of_mem hmem
      have hpw := List.pairwise_iff_getElem.1 hnd
      have : i = j := by
        rcases Nat.lt_trichotomy i j with hlt | heq | hgt
        · refine (hpw i j (by simpa) (by simpa) hlt ?_).elim
          simp [h1, h2, hp]
        · exact heq
        · refine (hpw j i (by simpa) (by simpa) hgt ?_).elim
          simp [h1, h2, hp]
      subst this
      rw [← h1, ← h2]
    rw [hfind]
    exact okay_seq (okay_write _) (okay_fieldsTo (fun t v bs h => h.okay) hs (hfo d hmem) ih)
  · -- bits
    intro t s o b p q ht hp hl hq he
    have hns : ∀ w, ¬ SingleEntry reg t w := by
      intro w h
      rcases single_length h with ⟨f, h, -⟩ | h | h <;> rw [ht] at h <;> cases h
    refine ⟨fun _ => RT.container ht (fun h => h) hns ?_ (fun e h => by cases h) (fun _ _ _ => rfl), fun h => by cases h⟩
    rw [enc_bits]
    refine okay_bits_iff.2 ⟨s, o, by rw [findSingle_done hns, ht], bitsEnc_spec hp hl hq⟩
  · intro c _; exact .nil
  · intro c t ts v vs bs bs' _ _ h1 h2 he
    exact .cons (h1 (he _ (by simp))) (h2 (fun w hw => he w (by simp [hw])))

/-- Encoding what the specification relates to some bytes gives these bytes. -/
theorem encode_complete {reg : Reg Id} {cc : Bool} {ctx : Id → Γ} {t v bs} (h : Scale reg True .u256 ctx false t v bs) (he : Encodable reg cc t) :
    Okay (v.encode reg cc t) bs := ((rt_all reg cc ctx h he).1 rfl).okay

end SV
