import Verif.Proofs.Encode
import Verif.Proofs.DecodeCtx
import Verif.Spec.Encode
/-
Encoding what the specification of SCALE relates to some bytes gives these bytes.
-/
namespace SV

variable {Id Γ Δ : Type}

theorem append_composite_all {reg : Reg Id} {cs : List (Child Id)} {t : Id} : AppendOnly (encComposite reg cs t) := append_composite reg cs t

theorem fails_iff {a : EncM Id} (h : AppendOnly a) : Fails a ↔ ∀ r, ¬ Okay a r :=
  ⟨fun hf _ ho => okay_not_fails ho hf, fun hn => (okay_or_fails h).resolve_left (fun ⟨r, hr⟩ => hn r hr)⟩

theorem okay_last_iff {cs : List (Child Id)} (hg : AppendOnlyAll cs) {t : Id} {e : EErr Id} {r : List UInt8} :
    Okay (encLast cs t e) r ↔ ∃ c, cs = [c] ∧ Okay (c.enc t) r := by
  constructor
  · intro h
    have h0 := h []
    unfold encLast at h0
    split at h0
    · rename_i c
      refine ⟨c, rfl, ?_⟩
      split at h0
      · rename_i tmp hc
        rw [okay_iff (hg c (by simp) t), hc]
        simpa using h0
      · cases h0
    · cases h0
  · rintro ⟨c, rfl, h⟩ out
    unfold encLast
    simp only
    rw [h []]
    simp

/-- What `encode_composite` tries, in order. -/
theorem okay_composite_iff {reg : Reg Id} {cs : List (Child Id)} (hg : AppendOnlyAll cs) {t : Id} {r : List UInt8} :
    Okay (encComposite reg cs t) r ↔ Okay (doEncodeComposite reg cs t) r ∨ (Fails (doEncodeComposite reg cs t) ∧
      (Okay (doEncodeComposite reg cs (findSingle reg t).1) r ∨ (Fails (doEncodeComposite reg cs (findSingle reg t).1) ∧
        ∃ c, cs = [c] ∧ Okay (c.enc (findSingle reg t).1) r))) := by
  have hd := append_doEncode hg reg
  have hc : ∀ a : EncM Id, AppendOnly a → ∀ e o, a [] = (.error e, o) → Fails a := by
    intro a ha e o h out; rw [ha out, h]; exact ⟨_, _, rfl⟩
  rw [okay_iff (append_composite reg cs t)]
  unfold encComposite
  rcases h1 : doEncodeComposite reg cs t [] with ⟨_ | _, tmp⟩
  · have hf1 := hc _ (hd t) _ _ h1
    have hn1 : ∀ r, ¬ Okay (doEncodeComposite reg cs t) r := (fails_iff (hd t)).1 hf1
    simp only [hn1, hf1, false_or, true_and]
    rcases hs : findSingle reg t with ⟨inner, _ | _⟩
    · have hi : inner = t := by
        by_cases h : ∃ u, SingleEntry reg t u
        · obtain ⟨u, h⟩ := h; rw [findSingle_step h] at hs; cases hs
        · rw [findSingle_done (not_exists.1 h)] at hs; cases hs; rfl
      subst hi
      simp only [hn1, hf1, false_or, true_and]
      rw [← okay_last_iff hg (t := inner), okay_iff (append_last _ _ _)]
    · simp only
      rcases h2 : doEncodeComposite reg cs inner [] with ⟨_ | _, tmp⟩
      · have hf2 := hc _ (hd inner) _ _ h2
        have hn2 : ∀ r, ¬ Okay (doEncodeComposite reg cs inner) r := (fails_iff (hd inner)).1 hf2
        simp only [hn2, hf2, false_or, true_and]
        rw [← okay_last_iff hg (t := inner), okay_iff (append_last _ _ _)]
      · rename_i x
        cases x
        have ho2 : Okay (doEncodeComposite reg cs inner) tmp := (okay_iff (hd inner)).2 h2
        have hn2 : ¬ Fails (doEncodeComposite reg cs inner) := okay_not_fails ho2
        simp only [hn2, false_and, or_false]
        rw [okay_iff (hd inner), h2]
        simp
  · rename_i x
    cases x
    have ho1 : Okay (doEncodeComposite reg cs t) tmp := (okay_iff (hd t)).2 h1
    have hn1 : ¬ Fails (doEncodeComposite reg cs t) := okay_not_fails ho1
    simp only [hn1, false_and, or_false]
    rw [okay_iff (hd t), h1]
    simp

/-! ### Wrappers around types that are not containers -/

theorem simple_not_single {reg : Reg Id} {t : Id} {d : TypeDef Id} (h : reg.resolve t = some d) (hd : IsSimple d) (u : Id) : ¬ SingleEntry reg t u := by
  intro hs
  cases hs with
  | composite h' => rw [h] at h'; cases h'; exact hd
  | tuple h' => rw [h] at h'; cases h'; exact hd
  | array h' => rw [h] at h'; cases h'; exact hd

theorem unwrapped_sameRepr {reg : Reg Id} {t u : Id} (h : Unwrapped reg t u) : SameRepr reg t u := by
  induction h with
  | done _ => exact .refl _
  | step h _ ih => exact .step (wraps_single h) ih

theorem findSingle_skip (reg : Reg Id) (t : Id) : (findSingle reg (skip reg t)).1 = (findSingle reg t).1 :=
  (findSingle_sameRepr (unwrapped_sameRepr (skip_unwrapped reg t))).symm

theorem findSingle_idem (reg : Reg Id) (t : Id) : (findSingle reg (findSingle reg t).1).1 = (findSingle reg t).1 :=
  (findSingle_sameRepr (findSingle_innermost reg t).1).symm

/-- A type is a wrapper, or simple. -/
theorem simple_cases {reg : Reg Id} {t : Id} {d : TypeDef Id} (h : reg.resolve (findSingle reg t).1 = some d) (hd : IsSimple d) :
    (∃ f, reg.resolve t = some (.composite [f]) ∧ (findSingle reg f.id).1 = (findSingle reg t).1) ∨
    (∃ u, reg.resolve t = some (.tuple [u]) ∧ (findSingle reg u).1 = (findSingle reg t).1) ∨
    (∃ u, reg.resolve t = some (.array u 1) ∧ (findSingle reg u).1 = (findSingle reg t).1) ∨
    ((findSingle reg t).1 = t ∧ reg.resolve t = some d) := by
  by_cases hs : ∃ u, SingleEntry reg t u
  · obtain ⟨u, hs⟩ := hs
    have := findSingle_step hs
    cases hs with
    | composite h' => exact .inl ⟨_, h', by rw [this]⟩
    | tuple h' => exact .inr (.inl ⟨_, h', by rw [this]⟩)
    | array h' => exact .inr (.inr (.inl ⟨_, h', by rw [this]⟩))
  · rw [findSingle_done (not_exists.1 hs)] at h ⊢
    exact .inr (.inr (.inr ⟨rfl, h⟩))

theorem okay_items_one {c : Child Id} (hg : AppendOnlyAll [c]) {t : Id} {nm : Bool} {k : Nat} {r : List UInt8} :
    Okay (encItems t nm k [c]) r ↔ Okay (c.enc t) r := by
  have hc := hg c (by simp) t
  unfold encItems
  rw [okay_seq_iff (append_mapErr hc) (by unfold encItems; exact append_done)]
  simp only [okay_mapErr_iff hc]
  unfold encItems
  simp only [okay_done_iff]
  constructor
  · rintro ⟨x, y, h, rfl, rfl⟩; simpa using h
  · intro h; exact ⟨r, [], h, rfl, by simp⟩

theorem okay_fieldsTo_one {c : Child Id} (hg : AppendOnlyAll [c]) {f : Field Id} {r : List UInt8} (h : Okay (encFieldsTo [c] [f]) r) :
    Okay (c.enc f.id) r := by
  have hc := hg c (by simp) f.id
  unfold encFieldsTo at h
  split at h
  · unfold encByName at h
    split at h
    · exact (okay_not_fails h (fails_fail _)).elim
    · rename_i c' hc'
      have : c' = c := by simpa using List.mem_of_find?_eq_some hc'
      subst this
      rw [okay_seq_iff (append_mapErr hc) (by unfold encByName; exact append_done)] at h
      simp only [okay_mapErr_iff hc] at h
      unfold encByName at h
      simp only [okay_done_iff] at h
      obtain ⟨x, y, h, rfl, rfl⟩ := h
      simpa using h
  · rw [if_neg (by simp)] at h
    unfold encByOrder at h
    rw [okay_seq_iff (append_mapErr hc) (by unfold encByOrder; exact append_done)] at h
    simp only [okay_mapErr_iff hc] at h
    unfold encByOrder at h
    simp only [okay_done_iff] at h
    obtain ⟨x, y, h, rfl, rfl⟩ := h
    simpa using h

/-- The first attempt, for one value at a wrapper of a simple type. -/
theorem okay_do_one {reg : Reg Id} {c : Child Id} (hg : AppendOnlyAll [c]) {t : Id} {d : TypeDef Id} (h : reg.resolve (findSingle reg t).1 = some d)
    (hd : IsSimple d) {r : List UInt8} (ho : Okay (doEncodeComposite reg [c] t) r) :
    ∃ u, (findSingle reg u).1 = (findSingle reg t).1 ∧ Okay (c.enc u) r := by
  have hcomp : Okay (encCompositeAsType reg [c] t) r → ∃ u, (findSingle reg u).1 = (findSingle reg t).1 ∧ Okay (c.enc u) r := by
    intro ho
    have hs := findSingle_skip reg t
    unfold encCompositeAsType at ho
    rw [← hs] at h
    rcases simple_cases h hd with ⟨f, h1, h2⟩ | ⟨u, h1, h2⟩ | ⟨u, h1, h2⟩ | ⟨h1, h2⟩
    · rw [h1] at ho
      simp only at ho
      split at ho
      · rename_i heq; cases heq; exact ⟨_, hs, ho⟩
      · exact ⟨f.id, by rw [h2, hs], okay_fieldsTo_one hg ho⟩
    · rw [h1] at ho; exact ⟨_, hs, ho⟩
    · rw [h1] at ho; exact ⟨_, hs, ho⟩
    · rw [h2] at ho
      cases d <;> first | exact hd.elim | exact ⟨_, hs, ho⟩
  unfold doEncodeComposite at ho
  rcases simple_cases h hd with ⟨f, h1, h2⟩ | ⟨u, h1, h2⟩ | ⟨u, h1, h2⟩ | ⟨h1, h2⟩
  · rw [h1] at ho; exact hcomp ho
  · rw [h1] at ho; exact hcomp ho
  · rw [h1] at ho
    simp only at ho
    rw [if_neg (by simp)] at ho
    exact ⟨u, h2, (okay_items_one hg).1 ho⟩
  · rw [h2] at ho
    cases d <;> first | exact hd.elim | exact ⟨t, rfl, ho⟩

/-- One value at a wrapper of a simple type is encoded like the value itself, at this or another wrapper of the simple type. -/
theorem okay_one_inv {reg : Reg Id} {c : Child Id} (hg : AppendOnlyAll [c]) {t : Id} {d : TypeDef Id} (h : reg.resolve (findSingle reg t).1 = some d)
    (hd : IsSimple d) {r : List UInt8} (ho : Okay (encComposite reg [c] t) r) :
    ∃ u, (findSingle reg u).1 = (findSingle reg t).1 ∧ Okay (c.enc u) r := by
  rcases (okay_composite_iff hg).1 ho with ho | ⟨-, ho | ⟨-, c', hc, ho⟩⟩
  · exact okay_do_one hg h hd ho
  · obtain ⟨u, hu, ho⟩ := okay_do_one hg (by rwa [findSingle_idem]) hd ho
    exact ⟨u, by rw [hu, findSingle_idem], ho⟩
  · cases hc; exact ⟨_, findSingle_idem reg t, ho⟩

theorem okay_one {reg : Reg Id} {c : Child Id} (hg : AppendOnlyAll [c]) {t : Id} {d : TypeDef Id} (h : reg.resolve (findSingle reg t).1 = some d)
    (hd : IsSimple d) {r : List UInt8} (ho : ∀ u, (findSingle reg u).1 = (findSingle reg t).1 → Okay (c.enc u) r) : Okay (encComposite reg [c] t) r := by
  have huniq : ∀ {q}, Okay (encComposite reg [c] t) q → q = r := by
    intro q hq
    obtain ⟨u, hu, h1⟩ := okay_one_inv hg h hd hq
    exact okay_unique h1 (ho u hu)
  rcases okay_or_fails (append_composite reg [c] t) with ⟨q, hq⟩ | hf
  · rw [← huniq hq]; exact hq
  · exfalso
    have hn := (fails_iff (append_composite reg [c] t)).1 hf
    refine hn r ((okay_composite_iff hg).2 ?_)
    rcases okay_or_fails (append_doEncode hg reg t) with ⟨q, hq⟩ | hf1
    · exact (hn q ((okay_composite_iff hg).2 (.inl hq))).elim
    · refine .inr ⟨hf1, ?_⟩
      rcases okay_or_fails (append_doEncode hg reg (findSingle reg t).1) with ⟨q, hq⟩ | hf2
      · exact (hn q ((okay_composite_iff hg).2 (.inr ⟨hf1, .inl hq⟩))).elim
      · exact .inr ⟨hf2, c, rfl, ho _ (findSingle_idem reg t)⟩

/-- Several (or no) values without names cannot be encoded at a wrapper of a simple type. -/
theorem fails_not_one {reg : Reg Id} {cs : List (Child Id)} (hg : AppendOnlyAll cs) (hu : ∀ c ∈ cs, c.name = none) (hl : cs.length ≠ 1) {t : Id} {d : TypeDef Id}
    (h : reg.resolve (findSingle reg t).1 = some d) (hd : IsSimple d) : Fails (encComposite reg cs t) := by
  have hf : ∀ f, Fails (encFieldsTo cs [f]) := by
    intro f
    unfold encFieldsTo
    have : cs.any (fun c => c.name.isSome) = false := by
      rw [List.any_eq_false]; intro c hc; simp [hu c hc]
    rw [this, Bool.and_false, if_neg (by simp), if_pos (by simpa using fun h => hl h.symm)]
    exact fails_fail _
  have hdo : ∀ t, (reg.resolve (findSingle reg t).1 = some d) → Fails (doEncodeComposite reg cs t) := by
    intro t h
    have hcomp : Fails (encCompositeAsType reg cs t) := by
      unfold encCompositeAsType
      rw [← findSingle_skip reg t] at h
      rcases simple_cases h hd with ⟨f, h1, h2⟩ | ⟨u, h1, h2⟩ | ⟨u, h1, h2⟩ | ⟨h1, h2⟩
      · rw [h1]; simp only
        split
        · simp at hl
        · exact hf f
      · rw [h1]; simp only
        split
        · simp at hl
        · exact hf _
      · rw [h1]; simp only
        split
        · simp at hl
        · exact fails_fail _
      · rw [h2]
        cases d <;> first | exact hd.elim | (simp only; split <;> first | exact fails_fail _ | (simp at hl))
    unfold doEncodeComposite
    rcases simple_cases h hd with ⟨f, h1, h2⟩ | ⟨u, h1, h2⟩ | ⟨u, h1, h2⟩ | ⟨h1, h2⟩
    · rw [h1]; exact hcomp
    · rw [h1]; exact hcomp
    · rw [h1]; simp only; rw [if_pos hl]; exact fails_fail _
    · rw [h2]
      cases d <;> first | exact hd.elim | (simp only; split <;> first | exact fails_fail _ | (simp at hl))
  rw [fails_iff (append_composite reg cs t)]
  intro r ho
  rcases (okay_composite_iff hg).1 ho with ho | ⟨-, ho | ⟨-, c', hc, ho⟩⟩
  · exact okay_not_fails ho (hdo t h)
  · exact okay_not_fails ho (hdo _ (by rwa [findSingle_idem]))
  · rw [hc] at hl; simp at hl

/-! ### The children of composites -/

/-- A value as a child without a name. -/
def childOf (reg : Reg Id) (cc : Bool) (v : Value Γ) : Child Id := ⟨none, v.encode reg cc, bitOf v⟩
/-- A value as a child with a name. -/
def childNamed (reg : Reg Id) (cc : Bool) (p : Str × Value Γ) : Child Id := ⟨some p.1, p.2.encode reg cc, bitOf p.2⟩

theorem encUnnamed_eq (reg : Reg Id) (cc : Bool) (vs : List (Value Γ)) : encUnnamed reg cc vs = vs.map (childOf reg cc) := by
  induction vs with
  | nil => rw [encUnnamed]; rfl
  | cons v vs ih => rw [encUnnamed, ih]; rfl

theorem encNamed_eq (reg : Reg Id) (cc : Bool) (vs : List (Str × Value Γ)) : encNamed reg cc vs = vs.map (childNamed reg cc) := by
  induction vs with
  | nil => rw [encNamed]; rfl
  | cons v vs ih => obtain ⟨k, v⟩ := v; rw [encNamed, ih]; rfl

theorem enc_unnamed (reg : Reg Id) (cc : Bool) (vs : List (Value Γ)) (x : Γ) (t : Id) :
    (Value.mk (.composite (.unnamed vs)) x).encode reg cc t = encComposite reg (vs.map (childOf reg cc)) t := by
  rw [Value.encode, ValueDef.encode, Composite.encChildren, encUnnamed_eq]

theorem enc_named (reg : Reg Id) (cc : Bool) (vs : List (Str × Value Γ)) (x : Γ) (t : Id) :
    (Value.mk (.composite (.named vs)) x).encode reg cc t = encComposite reg (vs.map (childNamed reg cc)) t := by
  rw [Value.encode, ValueDef.encode, Composite.encChildren, encNamed_eq]

theorem append_vals (reg : Reg Id) (cc : Bool) (vs : List (Value Γ)) : AppendOnlyAll (vs.map (childOf reg cc)) := by
  rw [← encUnnamed_eq]; exact append_unnamed reg cc vs

theorem append_fields (reg : Reg Id) (cc : Bool) (vs : List (Str × Value Γ)) : AppendOnlyAll (vs.map (childNamed reg cc)) := by
  rw [← encNamed_eq]; exact append_named reg cc vs

/-- Types, values and bytes side by side. -/
inductive All3 (R : Id → Value Γ → List UInt8 → Prop) : List Id → List (Value Γ) → List UInt8 → Prop
  | nil : All3 R [] [] []
  | cons {t ts v vs bs bs'} : R t v bs → All3 R ts vs bs' → All3 R (t :: ts) (v :: vs) (bs ++ bs')

theorem All3.length {R : Id → Value Γ → List UInt8 → Prop} {ts vs bs} (h : All3 R ts vs bs) : vs.length = ts.length := by
  induction h with
  | nil => rfl
  | cons _ _ ih => simp [ih]

theorem All3.one {R : Id → Value Γ → List UInt8 → Prop} {t vs bs} (h : All3 R [t] vs bs) : ∃ v, vs = [v] ∧ R t v bs := by
  cases h with
  | cons h1 h2 => cases h2; exact ⟨_, rfl, by simpa using h1⟩

theorem All3.imp {R R' : Id → Value Γ → List UInt8 → Prop} (hR : ∀ t v bs, R t v bs → R' t v bs) {ts vs bs} (h : All3 R ts vs bs) : All3 R' ts vs bs := by
  induction h with
  | nil => exact .nil
  | cons h1 _ ih => exact .cons (hR _ _ _ h1) ih

theorem okay_items {reg : Reg Id} {cc : Bool} {R : Id → Value Γ → List UInt8 → Prop} (hR : ∀ t v bs, R t v bs → Okay (v.encode reg cc t) bs) {u : Id} {nm : Bool} :
    ∀ {vs ts bs} k, All3 R ts vs bs → (∀ t ∈ ts, t = u) → Okay (encItems u nm k (vs.map (childOf reg cc))) bs := by
  intro vs ts bs k h
  induction h generalizing k with
  | nil => intro _; exact okay_done
  | cons h1 _ ih =>
    intro hu
    have := hu _ (List.mem_cons_self ..)
    subst this
    exact okay_seq (okay_mapErr (hR _ _ _ h1)) (ih (k + 1) (fun t ht => hu t (by simp [ht])))

theorem okay_byOrder {reg : Reg Id} {cc : Bool} {R : Id → Value Γ → List UInt8 → Prop} (hR : ∀ t v bs, R t v bs → Okay (v.encode reg cc t) bs) :
    ∀ {fs : List (Field Id)} {vs bs} k, All3 R (fs.map (fun f => f.id)) vs bs → Okay (encByOrder k (vs.map (childOf reg cc)) fs) bs := by
  intro fs
  induction fs with
  | nil => intro vs bs k h; cases h; unfold encByOrder; exact okay_done
  | cons f fs ih =>
    intro vs bs k h
    cases h with
    | cons h1 h2 => exact okay_seq (okay_mapErr (hR _ _ _ h1)) (ih (k + 1) h2)

theorem find?_unique {A : Type} {p : A → Bool} {l : List A} {a : A} (ha : a ∈ l) (hp : p a = true) (hu : ∀ b ∈ l, p b = true → b = a) : l.find? p = some a := by
  cases h : l.find? p with
  | none => rw [List.find?_eq_none] at h; exact (h a ha hp).elim
  | some b => rw [hu b (List.mem_of_find?_eq_some h) (by simpa using List.find?_some h)]

theorem zip_nodup_unique {A B : Type} {l : List A} {m : List B} (h : l.Nodup) {a : A} {b b' : B} (h1 : (a, b) ∈ l.zip m) (h2 : (a, b') ∈ l.zip m) : b = b' := by
  obtain ⟨i, hi, h1⟩ := List.getElem_of_mem h1
  obtain ⟨j, hj, h2⟩ := List.getElem_of_mem h2
  simp only [List.getElem_zip, Prod.mk.injEq] at h1 h2
  have hp := List.pairwise_iff_getElem.1 h
  have : i = j := by
    rcases Nat.lt_trichotomy i j with hlt | heq | hgt
    · exact (hp i j _ _ hlt (h1.1.trans h2.1.symm)).elim
    · exact heq
    · exact (hp j i _ _ hgt (h2.1.trans h1.1.symm)).elim
  subst this
  exact h1.2.symm.trans h2.2

theorem find_named {reg : Reg Id} {cc : Bool} {names : List Str} {vs : List (Value Γ)} (h : names.Nodup) {n : Str} {v : Value Γ} (hm : (n, v) ∈ names.zip vs) :
    ((names.zip vs).map (childNamed reg cc)).reverse.find? (fun c => c.name.getD [] == n) = some (childNamed reg cc (n, v)) := by
  refine find?_unique (by simpa using ⟨n, v, hm, rfl⟩) (by simp [childNamed]) ?_
  intro b hb hp
  obtain ⟨⟨m, w⟩, hm', rfl⟩ := List.mem_map.1 (List.mem_reverse.1 hb)
  have : m = n := by simpa [childNamed] using hp
  subst this
  rw [zip_nodup_unique h hm' hm]

theorem okay_byName {reg : Reg Id} {cc : Bool} {R : Id → Value Γ → List UInt8 → Prop} (hR : ∀ t v bs, R t v bs → Okay (v.encode reg cc t) bs)
    {names : List Str} {all : List (Value Γ)} (hn : names.Nodup) : ∀ {fs : List (Field Id)} {ns : List Str} {vs bs}, fs.map (fun f => f.name) = ns.map some →
      (∀ p ∈ ns.zip vs, p ∈ names.zip all) →
      All3 R (fs.map (fun f => f.id)) vs bs → Okay (encByName ((names.zip all).map (childNamed reg cc)) fs) bs := by
  intro fs
  induction fs with
  | nil => intro ns vs bs _ _ h; cases h; unfold encByName; exact okay_done
  | cons f fs ih =>
    intro ns vs bs hns hm h
    cases ns with
    | nil => cases hns
    | cons n ns =>
      simp only [List.map_cons, List.cons.injEq] at hns
      cases h with
      | @cons _ _ v vs b b' h1 h2 =>
        unfold encByName
        rw [hns.1, Option.getD_some, find_named hn (hm (n, v) (by simp))]
        exact okay_seq (okay_mapErr (hR _ _ _ h1)) (ih hns.2 (fun p hp => hm p (by simp [hp])) h2)

theorem okay_fieldsTo {reg : Reg Id} {cc : Bool} {R : Id → Value Γ → List UInt8 → Prop} (hR : ∀ t v bs, R t v bs → Okay (v.encode reg cc t) bs)
    {fs : List (Field Id)} {vs : List (Value Γ)} {cs : Composite Γ} {bs : List UInt8} (hs : HasShape fs vs cs) (hf : FieldsOk fs)
    (h : All3 R (fs.map (fun f => f.id)) vs bs) : Okay (encFieldsTo (cs.encChildren reg cc) fs) bs := by
  have hl := h.length
  rw [List.length_map] at hl
  cases hs with
  | @named names h1 h2 =>
    have hnl : names.length = fs.length := by simpa using (congrArg List.length h2).symm
    rw [Composite.encChildren, encNamed_eq]
    unfold encFieldsTo
    rw [if_pos]
    · exact okay_byName hR (hf names h2) h2 (fun p hp => hp) h
    · rw [Bool.and_eq_true]
      constructor
      · cases fs with
        | nil => exact (h1 rfl).elim
        | cons f fs =>
          cases names with
          | nil => cases h2
          | cons n names => simp only [List.map_cons, List.cons.injEq] at h2; simp [h2.1]
      · cases fs with
        | nil => exact (h1 rfl).elim
        | cons f fs =>
          cases names with
          | nil => cases h2
          | cons n names =>
            cases vs with
            | nil => simp at hl
            | cons v vs => simp [childNamed]
  | unnamed h1 =>
    rw [Composite.encChildren, encUnnamed_eq]
    unfold encFieldsTo
    have : (vs.map (childOf reg cc)).any (fun c => c.name.isSome) = false := by
      rw [List.any_eq_false]
      intro c hc
      obtain ⟨v, -, rfl⟩ := List.mem_map.1 hc
      simp [childOf]
    rw [this, Bool.and_false, if_neg (by simp), if_neg (by simp [hl])]
    exact okay_byOrder hR 0 h

/-! ### The main induction -/

/-- What is shown about a value `v` with the bytes `bs` at the type `t`. -/
structure RT (reg : Reg Id) (cc : Bool) (t : Id) (v : Value Γ) (bs : List UInt8) : Prop where
  simple : Simple reg t → ∀ x, (findSingle reg x).1 = (findSingle reg t).1 → Okay (v.encode reg cc x) bs
  okay : Okay (v.encode reg cc t) bs
  skip : (∃ p, Wraps reg p t ∧ Plain reg cc p) → Okay (v.encode reg cc (skip reg t)) bs
  seq : ∀ e, reg.resolve (SV.skip reg t) = some (.sequence e) → Simple reg e → ∀ x, (findSingle reg x).1 = (findSingle reg e).1 →
    ∀ q, Okay (v.encode reg cc x) q → bs = 4 :: q
  bit : ∀ s o, reg.resolve (SV.skip reg t) = some (.bitSequence s o) → bitOf v = none
  found : ∃ d, reg.resolve (SV.skip reg t) = some d

theorem simple_iff {reg : Reg Id} {t : Id} : Simple reg t ↔ ∃ d, reg.resolve (findSingle reg t).1 = some d ∧ IsSimple d := by
  constructor
  · rintro ⟨u, d, h1, h2, h3⟩; rw [← findSingle_iff] at h1; rw [h1]; exact ⟨d, h2, h3⟩
  · rintro ⟨d, h1, h2⟩; exact ⟨_, d, findSingle_innermost reg t, h1, h2⟩

theorem simple_congr {reg : Reg Id} {t u : Id} (h : (findSingle reg t).1 = (findSingle reg u).1) : Simple reg t ↔ Simple reg u := by
  rw [simple_iff, simple_iff, h]

theorem not_simple {reg : Reg Id} {t : Id} {d : TypeDef Id} (h : reg.resolve t = some d) (hd : ¬ IsSimple d) (hs : ∀ u, ¬ SingleEntry reg t u) : ¬ Simple reg t := by
  rw [simple_iff, findSingle_done hs]
  rintro ⟨d', h1, h2⟩
  rw [h] at h1; cases h1
  exact hd h2

theorem not_wraps_of {reg : Reg Id} {t : Id} (hs : ∀ u, ¬ SingleEntry reg t u) (u : Id) : ¬ Wraps reg t u := fun h => hs u (wraps_single h)

/-- Types that are no wrapper, and not simple. -/
theorem RT.container {reg : Reg Id} {cc : Bool} {t : Id} {v : Value Γ} {bs : List UInt8} {d : TypeDef Id} (h : reg.resolve t = some d) (hd : ¬ IsSimple d)
    (hs : ∀ u, ¬ SingleEntry reg t u) (ho : Okay (v.encode reg cc t) bs)
    (hseq : ∀ e, d = .sequence e → Simple reg e → ∀ x, (findSingle reg x).1 = (findSingle reg e).1 → ∀ q, Okay (v.encode reg cc x) q → bs = 4 :: q)
    (hb : ∀ s o, d = .bitSequence s o → bitOf v = none) : RT reg cc t v bs := by
  have hk := skip_done (not_wraps_of hs)
  refine ⟨fun h' => (not_simple h hd hs h').elim, ho, fun _ => by rw [hk]; exact ho, ?_, ?_, ⟨d, by rw [hk, h]⟩⟩
  · intro e he; rw [hk, h] at he; exact hseq e (by simpa using he)
  · intro s o he; rw [hk, h] at he; exact hb s o (by simpa using he)

theorem RT.leaf {reg : Reg Id} {cc : Bool} {t : Id} {v : Value Γ} {bs : List UInt8} {d : TypeDef Id} (h : reg.resolve t = some d) (hd : IsSimple d)
    (ho : ∀ x, (findSingle reg x).1 = t → Okay (v.encode reg cc x) bs) : RT reg cc t v bs := by
  have hs := simple_not_single h hd
  have hk := skip_done (not_wraps_of hs)
  have hf : (findSingle reg t).1 = t := by rw [findSingle_done hs]
  refine ⟨fun _ x hx => ho x (by rw [hx, hf]), ho t hf, fun _ => by rw [hk]; exact ho t hf, ?_, ?_, ⟨d, by rw [hk, h]⟩⟩
  · intro e he; rw [hk, h] at he; cases he; exact hd.elim
  · intro e o he; rw [hk, h] at he; cases he; exact hd.elim

theorem okay_do_composite {reg : Reg Id} {cs : List (Child Id)} (hg : AppendOnlyAll cs) {t : Id} {r : List UInt8} (h : Okay (doEncodeComposite reg cs t) r) :
    Okay (encComposite reg cs t) r := (okay_composite_iff hg).2 (.inl h)

/-- One value without a name, at a type that resolves to a struct or a tuple. -/
theorem do_asType_one {reg : Reg Id} {c : Child Id} (hc : c.name = none) {t : Id} {d : TypeDef Id} (h : reg.resolve (skip reg t) = some d) :
    encCompositeAsType reg [c] t = c.enc (skip reg t) := by
  unfold encCompositeAsType
  rw [h]
  cases d <;> simp [hc]

theorem RT.wrapper {reg : Reg Id} {cc : Bool} {t u : Id} {v : Value Γ} {bs : List UInt8} {x : Γ} (hw : Wraps reg t u) (hp : Plain reg cc t)
    (ih : RT reg cc u v bs) : RT reg cc t (.mk (.composite (.unnamed [v])) x) bs := by
  have hg := append_vals reg cc [v]
  have hfs : (findSingle reg t).1 = (findSingle reg u).1 := by rw [findSingle_step (wraps_single hw)]
  have hsk := skip_step hw
  have hv := ih.skip ⟨t, hw, hp⟩
  have hsimple : Simple reg t → ∀ y, (findSingle reg y).1 = (findSingle reg t).1 →
      Okay ((Value.mk (.composite (.unnamed [v])) x).encode reg cc y) bs := by
    intro hs y hy
    rw [enc_unnamed]
    obtain ⟨d, h1, h2⟩ := simple_iff.1 ((simple_congr hy).2 hs)
    exact okay_one hg h1 h2 (fun w hw => ih.simple ((simple_congr hfs).1 hs) w (by rw [hw, hy, hfs]))
  obtain ⟨d, hd⟩ := ih.found
  refine ⟨hsimple, ?_, ?_, ?_, fun _ _ _ => rfl, ⟨d, by rw [hsk, hd]⟩⟩
  · rw [enc_unnamed]
    refine okay_do_composite hg ?_
    have : doEncodeComposite reg [childOf reg cc v] t = encCompositeAsType reg [childOf reg cc v] t := by
      unfold doEncodeComposite
      cases hw with
      | composite h => rw [h]
      | tuple h => rw [h]
    rw [List.map_cons, List.map_nil, this, do_asType_one rfl (by rw [hsk, hd]), hsk]
    exact hv
  · rintro ⟨p, hpt, hpp⟩
    rw [hsk]
    have hns : ∀ w, ¬ Wraps reg (SV.skip reg u) w := skip_not_wraps reg u
    have hss := skip_done hns
    have last : (∀ w, ¬ SingleEntry reg (SV.skip reg u) w) → Fails (doEncodeComposite reg [childOf reg cc v] (SV.skip reg u)) →
        Okay ((Value.mk (.composite (.unnamed [v])) x).encode reg cc (SV.skip reg u)) bs := by
      intro h1 h2
      rw [enc_unnamed]
      refine (okay_composite_iff hg).2 (.inr ⟨h2, .inr ?_⟩)
      rw [findSingle_done h1]
      exact ⟨h2, _, rfl, hv⟩
    have hasT : doEncodeComposite reg [childOf reg cc v] (SV.skip reg u) = (childOf reg cc v).enc (SV.skip reg u) →
        Okay ((Value.mk (.composite (.unnamed [v])) x).encode reg cc (SV.skip reg u)) bs := by
      intro h
      rw [enc_unnamed]
      refine okay_do_composite hg ?_
      rw [List.map_cons, List.map_nil, h]; exact hv
    cases d with
    | composite fs =>
      refine hasT ?_
      unfold doEncodeComposite
      rw [hd]; simp only
      rw [do_asType_one rfl (by rw [hss, hd]), hss]
    | tuple ts =>
      refine hasT ?_
      unfold doEncodeComposite
      rw [hd]; simp only
      rw [do_asType_one rfl (by rw [hss, hd]), hss]
    | primitive p => refine hasT ?_; unfold doEncodeComposite; rw [hd]
    | compact p => refine hasT ?_; unfold doEncodeComposite; rw [hd]
    | variant p => refine hasT ?_; unfold doEncodeComposite; rw [hd]
    | sequence e =>
      have he : Simple reg e := hpp.wrapped t u (SV.skip reg u) e hpt hw (skip_unwrapped reg u) (.inl hd)
      have hone : ∀ w, ¬ SingleEntry reg (SV.skip reg u) w := by
        intro w h
        cases h with
        | composite h => rw [hd] at h; cases h
        | tuple h => rw [hd] at h; cases h
        | array h => rw [hd] at h; cases h
      rcases okay_or_fails (append_doEncode (append_vals reg cc [v]) reg (SV.skip reg u)) with ⟨q, hq⟩ | hf
      · have hq' := hq
        unfold doEncodeComposite at hq'
        rw [hd] at hq'
        simp only [List.map_cons, List.map_nil] at hq'
        have hg' : AppendOnlyAll [childOf reg cc v] := hg
        rw [okay_seq_iff (append_write _) (append_items hg' _ _ _)] at hq'
        obtain ⟨y, z, hy, hz, rfl⟩ := hq'
        rw [okay_write_iff] at hy
        rw [okay_items_one hg'] at hz
        have h4 := ih.seq e hd he e rfl z hz
        have hy' : y = [4] := by rw [hy]; rfl
        rw [h4]
        rw [hy'] at hq
        rw [enc_unnamed]
        exact okay_do_composite hg hq
      · exact last hone hf
    | array e n =>
      by_cases hn : n = 1
      · subst hn
        have he : Simple reg e := hpp.wrapped t u (SV.skip reg u) e hpt hw (skip_unwrapped reg u) (.inr hd)
        have h1 : (findSingle reg (SV.skip reg u)).1 = (findSingle reg e).1 := by rw [findSingle_step (.array hd)]
        have h2 : (findSingle reg t).1 = (findSingle reg e).1 := by rw [hfs, ← findSingle_skip reg u, h1]
        exact hsimple ((simple_congr h2).2 he) _ (by rw [h1, h2])
      · refine last ?_ ?_
        · intro w h
          cases h with
          | composite h => rw [hd] at h; cases h
          | tuple h => rw [hd] at h; cases h
          | array h => rw [hd] at h; cases h; exact hn rfl
        · unfold doEncodeComposite
          rw [hd]; simp only
          rw [if_pos (by simpa using fun h => hn h.symm)]
          exact fails_fail _
    | bitSequence s o =>
      refine last ?_ ?_
      · intro w h
        cases h with
        | composite h => rw [hd] at h; cases h
        | tuple h => rw [hd] at h; cases h
        | array h => rw [hd] at h; cases h
      · unfold doEncodeComposite
        rw [hd]
        simp only [encBools, childOf, ih.bit s o hd]
        exact fails_error _
  · intro e he hs y hy q hq
    rw [enc_unnamed] at hq
    obtain ⟨d', h1, h2⟩ := simple_iff.1 ((simple_congr hy).2 hs)
    obtain ⟨w, hw, ho⟩ := okay_one_inv hg h1 h2 hq
    exact ih.seq e (by rw [← hsk, he]) hs w (by rw [hw, hy]) q ho

end SV
