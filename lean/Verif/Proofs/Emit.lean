import Verif.Spec.Emit
import Verif.Proofs.EncodeRules
import Verif.Proofs.SizeDec
/-
What encoding emits is SCALE of the type, of the same data.
-/
namespace SV

variable {Id Γ Δ : Type}

theorem fieldLeaves_eq (fs : List (Str × Value Γ)) : fieldLeaves fs = valueLeaves (fs.map (fun p => p.2)) := by
  induction fs with
  | nil => rw [fieldLeaves, List.map_nil, valueLeaves]
  | cons p fs ih => obtain ⟨k, v⟩ := p; rw [fieldLeaves, List.map_cons, valueLeaves, ih]

theorem composite_leaves (c : Composite Γ) : c.leaves = valueLeaves c.vals := by
  cases c with
  | named fs => rw [Composite.leaves, Composite.vals, fieldLeaves_eq]
  | unnamed vs => rw [Composite.leaves, Composite.vals]

theorem valueLeaves_eq (vs : List (Value Γ)) : valueLeaves vs = (vs.map Value.leaves).flatten := by
  induction vs with
  | nil => rw [valueLeaves]; rfl
  | cons v vs ih => rw [valueLeaves, ih]; rfl

theorem leaves_composite (c : Composite Γ) (x : Γ) : (Value.mk (.composite c) x).leaves = valueLeaves c.vals := by
  rw [Value.leaves, composite_leaves]
theorem leaves_variant (n : Str) (c : Composite Γ) (x : Γ) : (Value.mk (.variant (.mk n c)) x).leaves = .tag n :: valueLeaves c.vals := by
  rw [Value.leaves, composite_leaves]
theorem leaves_prim (p : Primitive) (x : Γ) : (Value.mk (.primitive p) x).leaves = p.leaves := by rw [Value.leaves]
theorem leaves_bits (b : List Bool) (x : Γ) : (Value.mk (.bitSequence b) x).leaves = b.map .bit := by rw [Value.leaves]

/-- The bytes are SCALE of a value of the type, with data from `L`; all of `L` in order if `P`. -/
def Emits (reg : Reg Id) (ctx : Id → Δ) (P : Prop) (L : List Datum) (t : Id) (bs : List UInt8) : Prop :=
  ∃ w, Scale reg True .u256 ctx false t w bs ∧ (∀ x ∈ w.leaves, x ∈ L) ∧ (P → w.leaves = L)

def EmitsAll (reg : Reg Id) (ctx : Id → Δ) (P : Prop) (L : List Datum) (ts : List Id) (bs : List UInt8) : Prop :=
  ∃ ws, ScaleAll reg True .u256 ctx false ts ws bs ∧ (∀ x ∈ valueLeaves ws, x ∈ L) ∧ (P → valueLeaves ws = L)

variable {reg : Reg Id} {ctx : Id → Δ} {P : Prop}

theorem Emits.mono {L : List Datum} {t bs} {Q : Prop} (h : Emits reg ctx P L t bs) (hq : Q → P) : Emits reg ctx Q L t bs := by
  obtain ⟨w, h1, h2, h3⟩ := h; exact ⟨w, h1, h2, fun q => h3 (hq q)⟩

theorem hasShape_some (fs : List (Field Id)) (ws : List (Value Δ)) : ∃ cs, HasShape fs ws cs := ⟨_, hasShape_iff.2 rfl⟩

theorem EmitsAll.one {L : List Datum} {t bs} (h : Emits reg ctx P L t bs) : EmitsAll reg ctx P L [t] bs := by
  obtain ⟨w, h1, h2, h3⟩ := h
  refine ⟨[w], by have := ScaleAll.cons h1 .nil; simpa using this, ?_, ?_⟩
  · simpa [valueLeaves] using h2
  · simpa [valueLeaves] using h3

theorem EmitsAll.cons {L M : List Datum} {t ts bs bs'} (h : Emits reg ctx P L t bs) (h' : EmitsAll reg ctx P M ts bs') :
    EmitsAll reg ctx P (L ++ M) (t :: ts) (bs ++ bs') := by
  obtain ⟨w, h1, h2, h3⟩ := h
  obtain ⟨ws, h4, h5, h6⟩ := h'
  refine ⟨w :: ws, .cons h1 h4, ?_, ?_⟩
  · intro x hx
    rw [valueLeaves, List.mem_append] at hx
    rw [List.mem_append]
    exact hx.imp (h2 x) (h5 x)
  · intro p; rw [valueLeaves, h3 p, h6 p]

theorem EmitsAll.composite {L : List Datum} {t bs fs} (ht : reg.resolve t = some (.composite fs)) (h : EmitsAll reg ctx P L (fs.map (fun f => f.id)) bs) :
    Emits reg ctx P L t bs := by
  obtain ⟨ws, h1, h2, h3⟩ := h
  obtain ⟨cs, hcs⟩ := hasShape_some fs ws
  have hv := hasShape_vals hcs (by simpa using (scaleAll_length h1).symm)
  exact ⟨_, .composite ht (by simp) h1 hcs, by rwa [leaves_composite, hv], by rwa [leaves_composite, hv]⟩

theorem EmitsAll.tuple {L : List Datum} {t bs ts} (ht : reg.resolve t = some (.tuple ts)) (h : EmitsAll reg ctx P L ts bs) : Emits reg ctx P L t bs := by
  obtain ⟨ws, h1, h2, h3⟩ := h
  exact ⟨_, .tuple ht (by simp) h1, by rwa [leaves_composite, Composite.vals], by rwa [leaves_composite, Composite.vals]⟩

theorem EmitsAll.array {L : List Datum} {t u n bs} (ht : reg.resolve t = some (.array u n)) (h : EmitsAll reg ctx P L (List.replicate n u) bs) : Emits reg ctx P L t bs := by
  obtain ⟨ws, h1, h2, h3⟩ := h
  exact ⟨_, .array ht h1, by rwa [leaves_composite, Composite.vals], by rwa [leaves_composite, Composite.vals]⟩

theorem EmitsAll.sequence {L : List Datum} {t u n bs} (ht : reg.resolve t = some (.sequence u)) (hn : n < 2 ^ 32) (h : EmitsAll reg ctx P L (List.replicate n u) bs) :
    Emits reg ctx P L t (compactEnc (n % 2 ^ 32) ++ bs) := by
  obtain ⟨ws, h1, h2, h3⟩ := h
  have hl : n = ws.length := by simpa using scaleAll_length h1
  subst hl
  rw [Nat.mod_eq_of_lt hn]
  exact ⟨_, .sequence ht ((isCompact_iff (by omega)).2 rfl) (by omega) (fun _ => hn) h1, by rwa [leaves_composite, Composite.vals], by rwa [leaves_composite, Composite.vals]⟩

theorem Emits.wrap {L : List Datum} {t u bs} (hr : SameRepr reg t u) (h : Emits reg ctx P L u bs) : Emits reg ctx P L t bs := by
  induction hr with
  | refl => exact h
  | step h1 _ ih =>
    have := EmitsAll.one (ih h)
    cases h1 with
    | composite hc => exact EmitsAll.composite hc this
    | tuple hc => exact EmitsAll.tuple hc this
    | array hc => exact EmitsAll.array hc this

/-! ### Types -/

theorem sensible_ref {t u : Id} {d : TypeDef Id} (h : Sensible reg t) (ht : reg.resolve t = some d) (hu : u ∈ d.refs) : Sensible reg u :=
  fun w hw => h w (Reach.trans (.step .self ht hu) hw)

theorem sensible_single {t u : Id} (h : Sensible reg t) (hs : SingleEntry reg t u) : Sensible reg u := by
  cases hs with
  | composite hc => exact sensible_ref h hc (by simp [TypeDef.refs])
  | tuple hc => exact sensible_ref h hc (by simp [TypeDef.refs])
  | array hc => exact sensible_ref h hc (by simp [TypeDef.refs])

theorem sensible_same {t u : Id} (h : Sensible reg t) (hs : SameRepr reg t u) : Sensible reg u := by
  induction hs with
  | refl => exact h
  | step h1 _ ih => exact ih (sensible_single h h1)

/-! ### Children -/

/-- A child that emits data `L`. -/
structure Kid (reg : Reg Id) (ctx : Id → Δ) (P : Prop) (c : Child Id) (L : List Datum) : Prop where
  app : ∀ t, AppendOnly (c.enc t)
  emits : ∀ t, Sensible reg t → ∀ bs, Okay (c.enc t) bs → Emits reg ctx P L t bs
  bit : ∀ b, c.bit = some b → L = [.bit b]

theorem kids_app {cs : List (Child Id)} {Ls : List (List Datum)} (h : List.Forall₂ (Kid reg ctx P) cs Ls) : AppendOnlyAll cs := by
  induction h with
  | nil => intro c hc; cases hc
  | cons h _ ih =>
    intro c hc t
    rcases List.mem_cons.1 hc with rfl | hc
    · exact h.app t
    · exact ih c hc t

theorem emits_items {cs : List (Child Id)} {Ls : List (List Datum)} (h : List.Forall₂ (Kid reg ctx P) cs Ls) {u : Id} (hu : Sensible reg u) {nm : Bool} :
    ∀ {k : Nat} {bs : List UInt8}, Okay (encItems u nm k cs) bs → EmitsAll reg ctx P Ls.flatten (List.replicate cs.length u) bs := by
  induction h with
  | nil =>
    intro k bs ho
    unfold encItems at ho; rw [okay_done_iff] at ho; subst ho
    exact ⟨[], .nil, by simp [valueLeaves], by simp [valueLeaves]⟩
  | @cons c L cs Ls h h2 ih =>
    intro k bs ho
    have ha := kids_app h2
    unfold encItems at ho
    rw [okay_seq_iff (append_mapErr (h.app u)) (append_items ha _ _ _)] at ho
    obtain ⟨x, y, h3, h4, rfl⟩ := ho
    rw [okay_mapErr_iff (h.app u)] at h3
    exact .cons (h.emits u hu x h3) (ih h4)

theorem emits_byOrder {cs : List (Child Id)} {Ls : List (List Datum)} (h : List.Forall₂ (Kid reg ctx P) cs Ls) :
    ∀ {fs : List (Field Id)}, fs.length = cs.length → (∀ f ∈ fs, Sensible reg f.id) → ∀ {k : Nat} {bs : List UInt8}, Okay (encByOrder k cs fs) bs →
      EmitsAll reg ctx P Ls.flatten (fs.map (fun f => f.id)) bs := by
  induction h with
  | nil =>
    intro fs hl _ k bs ho
    obtain rfl := List.length_eq_zero_iff.1 hl
    unfold encByOrder at ho; rw [okay_done_iff] at ho; subst ho
    exact ⟨[], .nil, by simp [valueLeaves], by simp [valueLeaves]⟩
  | @cons c L cs Ls h h2 ih =>
    intro fs hl hf k bs ho
    have ha := kids_app h2
    cases fs with
    | nil => simp at hl
    | cons f fs =>
      unfold encByOrder at ho
      rw [okay_seq_iff (append_mapErr (h.app _)) (append_byOrder ha _ _)] at ho
      obtain ⟨x, y, h3, h4, rfl⟩ := ho
      rw [okay_mapErr_iff (h.app _)] at h3
      exact .cons (h.emits _ (hf f (by simp)) x h3) (ih (by simpa using hl) (fun g hg => hf g (by simp [hg])) h4)

theorem kid_mem {cs : List (Child Id)} {Ls : List (List Datum)} (h : List.Forall₂ (Kid reg ctx P) cs Ls) {c : Child Id} (hc : c ∈ cs) : ∃ L ∈ Ls, Kid reg ctx P c L := by
  induction h with
  | nil => cases hc
  | cons h _ ih =>
    rcases List.mem_cons.1 hc with rfl | hc
    · exact ⟨_, by simp, h⟩
    · obtain ⟨L, h1, h2⟩ := ih hc; exact ⟨L, by simp [h1], h2⟩

theorem emits_byName {cs : List (Child Id)} {Ls : List (List Datum)} (h : List.Forall₂ (Kid reg ctx P) cs Ls) :
    ∀ {fs : List (Field Id)}, (∀ f ∈ fs, Sensible reg f.id) → ∀ {bs : List UInt8}, Okay (encByName cs fs) bs →
      EmitsAll reg ctx False Ls.flatten (fs.map (fun f => f.id)) bs := by
  intro fs
  induction fs with
  | nil =>
    intro _ bs ho
    unfold encByName at ho; rw [okay_done_iff] at ho; subst ho
    exact ⟨[], .nil, by simp [valueLeaves], by simp⟩
  | cons f fs ih =>
    intro hf bs ho
    unfold encByName at ho
    split at ho
    · rw [okay_fail_iff] at ho; exact ho.elim
    · rename_i c hc
      have hm : c ∈ cs := List.mem_reverse.1 (List.mem_of_find?_eq_some hc)
      obtain ⟨L, hL, hk⟩ := kid_mem h hm
      rw [okay_seq_iff (append_mapErr (hk.app _)) (append_byName (kids_app h) _)] at ho
      obtain ⟨x, y, h3, h4, rfl⟩ := ho
      rw [okay_mapErr_iff (hk.app _)] at h3
      obtain ⟨w, w1, w2, -⟩ := hk.emits _ (hf f (by simp)) x h3
      obtain ⟨ws, s1, s2, -⟩ := ih (fun g hg => hf g (by simp [hg])) h4
      refine ⟨w :: ws, .cons w1 s1, ?_, False.elim⟩
      intro z hz
      rw [valueLeaves, List.mem_append] at hz
      rcases hz with hz | hz
      · exact List.mem_flatten.2 ⟨L, hL, w2 z hz⟩
      · exact s2 z hz

theorem emits_fieldsTo {cs : List (Child Id)} {Ls : List (List Datum)} (h : List.Forall₂ (Kid reg ctx P) cs Ls) (hP : P → ∀ c ∈ cs, c.name = none)
    {fs : List (Field Id)} (hf : ∀ f ∈ fs, Sensible reg f.id) {bs : List UInt8} (ho : Okay (encFieldsTo cs fs) bs) :
    EmitsAll reg ctx P Ls.flatten (fs.map (fun f => f.id)) bs := by
  unfold encFieldsTo at ho
  split at ho
  · rename_i hn
    obtain ⟨ws, h1, h2, -⟩ := emits_byName h hf ho
    refine ⟨ws, h1, h2, fun p => ?_⟩
    rw [Bool.and_eq_true, List.any_eq_true, List.any_eq_true] at hn
    obtain ⟨-, c, hc, hs⟩ := hn
    rw [hP p c hc] at hs; cases hs
  · split at ho
    · rw [okay_fail_iff] at ho; exact ho.elim
    · rename_i hl
      exact emits_byOrder h (Decidable.not_not.1 hl) hf ho

theorem kid_single {c : Child Id} {Ls : List (List Datum)} (h : List.Forall₂ (Kid reg ctx P) [c] Ls) : Kid reg ctx P c Ls.flatten := by
  cases h with
  | cons h h' => cases h'; simpa using h

theorem emits_asType {cs : List (Child Id)} {Ls : List (List Datum)} (h : List.Forall₂ (Kid reg ctx P) cs Ls) (hP : P → ∀ c ∈ cs, c.name = none)
    {t : Id} (ht : Sensible reg t) {bs : List UInt8} (ho : Okay (encCompositeAsType reg cs t) bs) : Emits reg ctx P Ls.flatten t bs := by
  have hr : SameRepr reg t (skip reg t) := unwrapped_sameRepr (skip_unwrapped reg t)
  have hs := sensible_same ht hr
  refine Emits.wrap hr ?_
  have one : ∀ {c}, cs = [c] → Okay (c.enc (skip reg t)) bs → Emits reg ctx P Ls.flatten (skip reg t) bs := by
    rintro c rfl hc
    exact (kid_single h).emits _ hs _ hc
  unfold encCompositeAsType at ho
  split at ho
  · rw [okay_fail_iff] at ho; exact ho.elim
  · rename_i fs hf
    split at ho
    · exact one rfl ho
    · exact EmitsAll.composite hf (emits_fieldsTo h hP (fun f hm => sensible_ref hs hf (by simp only [TypeDef.refs, List.mem_map]; exact ⟨f, hm, rfl⟩)) ho)
  · rename_i ts hf
    split at ho
    · exact one rfl ho
    · have := emits_fieldsTo h hP (fs := ts.map (fun t => ⟨none, t⟩)) (by
        intro f hm; simp only [List.mem_map] at hm; obtain ⟨a, ha, rfl⟩ := hm
        exact sensible_ref hs hf (by simpa [TypeDef.refs] using ha)) ho
      rw [List.map_map] at this
      have e : List.map ((fun f : Field Id => f.id) ∘ fun t => ⟨none, t⟩) ts = ts := by
        rw [show ((fun f : Field Id => f.id) ∘ fun t => ⟨none, t⟩) = id from rfl, List.map_id]
      rw [e] at this
      exact EmitsAll.tuple hf this
  · split at ho
    · exact one rfl ho
    · rw [okay_fail_iff] at ho; exact ho.elim

theorem bools_leaves {cs : List (Child Id)} {Ls : List (List Datum)} (h : List.Forall₂ (Kid reg ctx P) cs Ls) :
    ∀ {k : Nat} {b : List Bool}, encBools k cs = .ok b → Ls.flatten = b.map .bit ∧ b.length = cs.length := by
  induction h with
  | nil => intro k b hb; rw [encBools] at hb; cases hb; exact ⟨rfl, rfl⟩
  | @cons c L cs Ls h _ ih =>
    intro k b hb
    rw [encBools] at hb
    split at hb
    · cases hb
    · rename_i b0 h0
      split at hb
      · cases hb
      · rename_i bs h1
        cases hb
        obtain ⟨i1, i2⟩ := ih h1
        rw [List.flatten_cons, h.bit b0 h0, i1]
        exact ⟨rfl, by simp [i2]⟩

theorem emits_bits {t : Id} {s : BitStore} {o : BitOrder} (ht : reg.resolve t = some (.bitSequence s o)) {b : List Bool} (hl : b.length < 2 ^ 32) :
    Emits reg ctx P (b.map .bit) t (bitsEnc s o b) := by
  refine ⟨.mk (.bitSequence b) (ctx t), ?_, by rw [leaves_bits]; exact fun _ h => h, fun _ => leaves_bits _ _⟩
  unfold bitsEnc
  rw [Nat.mod_eq_of_lt hl]
  exact .bits ht ((isCompact_iff (by omega)).2 rfl) hl (isBits_encWords True s o b)

theorem emits_do {cs : List (Child Id)} {Ls : List (List Datum)} (h : List.Forall₂ (Kid reg ctx P) cs Ls) (hP : P → ∀ c ∈ cs, c.name = none)
    (hl : cs.length < 2 ^ 32) {t : Id} (ht : Sensible reg t) {bs : List UInt8} (ho : Okay (doEncodeComposite reg cs t) bs) : Emits reg ctx P Ls.flatten t bs := by
  unfold doEncodeComposite at ho
  split at ho
  · exact emits_asType h hP ht ho
  · exact emits_asType h hP ht ho
  · rename_i u hr
    rw [okay_seq_iff (append_write _) (append_items (kids_app h) _ _ _)] at ho
    obtain ⟨x, y, h1, h2, rfl⟩ := ho
    rw [okay_write_iff] at h1; subst h1
    exact EmitsAll.sequence hr hl (emits_items h (sensible_ref ht hr (by simp [TypeDef.refs])) h2)
  · rename_i u n hr
    split at ho
    · rw [okay_fail_iff] at ho; exact ho.elim
    · rename_i hn
      have hn := Decidable.not_not.1 hn
      subst hn
      exact EmitsAll.array hr (emits_items h (sensible_ref ht hr (by simp [TypeDef.refs])) ho)
  · rename_i s o hr
    split at ho
    · exact (okay_not_fails ho (fails_error _)).elim
    · rename_i b hb
      rw [okay_write_iff] at ho; subst ho
      obtain ⟨h1, h2⟩ := bools_leaves h hb
      rw [h1]
      exact emits_bits hr (by omega)
  · split at ho
    · exact (kid_single h).emits _ ht _ ho
    · rw [okay_fail_iff] at ho; exact ho.elim

theorem emits_composite {cs : List (Child Id)} {Ls : List (List Datum)} (h : List.Forall₂ (Kid reg ctx P) cs Ls) (hP : P → ∀ c ∈ cs, c.name = none)
    (hl : cs.length < 2 ^ 32) {t : Id} (ht : Sensible reg t) {bs : List UInt8} (ho : Okay (encComposite reg cs t) bs) : Emits reg ctx P Ls.flatten t bs := by
  have hr := (findSingle_innermost reg t).1
  have hs := sensible_same ht hr
  rcases (okay_composite_iff (kids_app h)).1 ho with h1 | ⟨-, h1 | ⟨-, c, rfl, h1⟩⟩
  · exact emits_do h hP hl ht h1
  · exact Emits.wrap hr (emits_do h hP hl hs h1)
  · exact Emits.wrap hr ((kid_single h).emits _ hs _ h1)

theorem find_index {ds : List (VariantDef Id)} (hn : (ds.map (fun d => d.index)).Nodup) {d : VariantDef Id} (hd : d ∈ ds) :
    ds.find? (fun e => e.index == d.index) = some d := by
  induction ds with
  | nil => cases hd
  | cons e ds ih =>
    rw [List.map_cons, List.nodup_cons] at hn
    rcases List.mem_cons.1 hd with rfl | hd
    · simp
    · rw [List.find?_cons_of_neg]
      · exact ih hn.2 hd
      · intro he
        exact hn.1 (List.mem_map.2 ⟨d, hd, (beq_iff_eq.1 he).symm⟩)

theorem emits_variant {cs : List (Child Id)} {Ls : List (List Datum)} (h : List.Forall₂ (Kid reg ctx P) cs Ls) (hP : P → ∀ c ∈ cs, c.name = none)
    {t : Id} (ht : Sensible reg t) {n : Str} {bs : List UInt8} (ho : Okay (encVariant reg n cs t) bs) : Emits reg ctx P (.tag n :: Ls.flatten) t bs := by
  have hr := (findSingle_innermost reg t).1
  have hs := sensible_same ht hr
  refine Emits.wrap hr ?_
  unfold encVariant at ho
  split at ho
  · rename_i ds hd
    split at ho
    · rw [okay_fail_iff] at ho; exact ho.elim
    · rename_i d hf
      rw [okay_seq_iff (append_write _) (append_fieldsTo (kids_app h) _)] at ho
      obtain ⟨x, y, h1, h2, rfl⟩ := ho
      rw [okay_write_iff] at h1; subst h1
      have hm := List.mem_of_find?_eq_some hf
      have hname : d.name = n := by simpa using List.find?_some hf
      obtain ⟨ws, w1, w2, w3⟩ := emits_fieldsTo h hP (fun f hf => sensible_ref hs hd (by
        simp only [TypeDef.refs, List.mem_flatMap, List.mem_map]; exact ⟨d, hm, f, hf, rfl⟩)) h2
      obtain ⟨c, hc⟩ := hasShape_some d.fields ws
      have hv := hasShape_vals hc (by simpa using (scaleAll_length w1).symm)
      refine ⟨_, .variant hd (find_index ((hs _ .self).1 ds hd) hm) w1 hc, ?_, ?_⟩
      · rw [leaves_variant, hv, hname]
        intro z hz
        rcases List.mem_cons.1 hz with rfl | hz
        · simp
        · exact List.mem_cons_of_mem _ (w2 z hz)
      · intro p; rw [leaves_variant, hv, hname, w3 p]
  · rw [okay_fail_iff] at ho; exact ho.elim
  · rw [okay_fail_iff] at ho; exact ho.elim

/-! ### Primitives -/

theorem emits_prim {t : Id} {w : Value Δ} {L : List Datum} {bs} (h : Scale reg True .u256 ctx false t w bs) (hw : w.leaves = L) : Emits reg ctx P L t bs :=
  ⟨w, h, by rw [hw]; exact fun _ h => h, fun _ => hw⟩

theorem pow_le_128 {k : Nat} (h : k ≤ 16) : 256 ^ k ≤ 2 ^ 128 := by
  have := Nat.pow_le_pow_right (n := 256) (by decide) h
  exact Nat.le_trans this (by decide)

/-- In compact mode, wrappers other than arrays are transparent. -/
theorem compact_wrap {w x : Id} (hr : SameRepr reg w x) (hn : ∀ y, SameRepr reg w y → ∀ a n, reg.resolve y ≠ some (.array a n)) {v : Value Δ} {bs} {L : List Datum}
    (h : Scale reg True .u256 ctx true x v bs) (hv : v.leaves = L) : ∃ v, Scale reg True .u256 ctx true w v bs ∧ v.leaves = L := by
  induction hr with
  | refl => exact ⟨v, h, hv⟩
  | step h1 _ ih =>
    obtain ⟨v', s1, s2⟩ := ih (fun y hy => hn y (.step h1 hy)) h
    have hs : ScaleAll reg True .u256 ctx true [_] [v'] (bs ++ []) := .cons s1 .nil
    rw [List.append_nil] at hs
    cases h1 with
    | @composite f hc =>
      obtain ⟨c, hcs⟩ := hasShape_some [f] [v']
      have hvals := hasShape_vals hcs rfl
      exact ⟨_, .composite hc (fun _ => rfl) hs hcs, by rw [leaves_composite, hvals]; simpa [valueLeaves] using s2⟩
    | tuple hc => exact ⟨_, .tuple hc (fun _ => rfl) hs, by rw [leaves_composite, Composite.vals]; simpa [valueLeaves] using s2⟩
    | array hc => exact (hn _ (.refl _) _ _ hc).elim

theorem emits_numAt {u : Id} (hu : Sensible reg u) {n : Int} {bs} {ch : Bool} (hch : ch = true → ∃ c : Char, n = c.toNat) (h : NumAt reg ch u n bs) :
    Emits reg ctx P [.num n] u bs := by
  cases h with
  | @uint p k n bs h1 h2 h3 =>
    have hn : n < 2 ^ 128 := Nat.lt_of_lt_of_le (isLe_iff.1 h3).1 (pow_le_128 (uintType_le h2))
    exact emits_prim (w := .mk (.primitive (.u128 ⟨n, hn⟩)) (ctx u)) (.uint h1 h2 h3) (by rw [leaves_prim, Primitive.leaves])
  | @int p k n bs h1 h2 h3 =>
    obtain ⟨h4, h5, h6, h7⟩ := h3
    have hk : (256 ^ k : Nat) ≤ (2 : Int) ^ 128 := by
      have : k ≤ 16 := by cases h2 <;> decide
      have := pow_le_128 this
      calc ((256 ^ k : Nat) : Int) ≤ ((2 ^ 128 : Nat) : Int) := by exact_mod_cast this
        _ = (2 : Int) ^ 128 := by norm_num
    exact emits_prim (w := .mk (.primitive (.i128 ⟨n, by omega, by omega⟩)) (ctx u)) (.int h1 h2 ⟨h4, h5, h6, h7⟩) (by rw [leaves_prim, Primitive.leaves])
  | @char n bs h1 h2 h3 =>
    obtain ⟨c, hc⟩ := hch h2
    have hc : n = c.toNat := by exact_mod_cast hc
    subst hc
    exact emits_prim (w := .mk (.primitive (.char c)) (ctx u)) (.char h1 h3) (by rw [leaves_prim, Primitive.leaves])
  | @compact w x p k n bs h1 h2 h3 h4 h5 h6 =>
    have hn : n < 2 ^ 128 := Nat.lt_of_lt_of_le h5 (pow_le_128 (uintType_le h4))
    obtain ⟨v, s1, s2⟩ := compact_wrap (ctx := ctx) (L := [.num n]) h2.1 ((hu _ .self).2 w h1) (v := .mk (.primitive (.u128 ⟨n, hn⟩)) (ctx x)) (.compactUint h3 h4 h5 h6)
      (by rw [leaves_prim, Primitive.leaves])
    exact emits_prim (.compact h1 s1) s2

theorem emits_num {t : Id} (ht : Sensible reg t) {n : Int} {bs} {ch : Bool} (hch : ch = true → ∃ c : Char, n = c.toNat) (h : Okay (encNum reg ch n t) bs) :
    Emits reg ctx P [.num n] t bs := by
  have hr := (findSingle_innermost reg t).1
  exact Emits.wrap hr (emits_numAt (sensible_same ht hr) hch (okay_num_iff.1 h))

theorem bytes_kids (bs : List UInt8) : List.Forall₂ (Kid reg ctx P) (byteChildren reg bs) (bs.map (fun x => [.num x.toNat])) := by
  unfold byteChildren
  induction bs with
  | nil => exact .nil
  | cons b bs ih =>
    refine .cons ⟨fun t => append_num _ _ _ _, fun t ht bs h => emits_num ht (by simp) h, ?_⟩ ih
    intro b h; cases h

theorem emits_bytes (bs : List UInt8) (hl : bs.length < 2 ^ 32) : ∀ n t, Sensible reg t → ∀ p, Okay (encBytesN reg bs n t) p →
    Emits reg ctx P (bs.map (fun x => .num x.toNat)) t p := by
  have hf : (bs.map (fun x => [Datum.num (x.toNat : Int)])).flatten = bs.map (fun x => .num x.toNat) := by
    induction bs with
    | nil => rfl
    | cons b bs ih => simp only [List.map_cons, List.flatten_cons, ih (by simp at hl; omega)]; rfl
  have hk : (byteChildren reg bs).length = bs.length := by simp [byteChildren]
  intro n
  induction n with
  | zero => intro t _ p h; rw [encBytesN, okay_fail_iff] at h; exact h.elim
  | succ n ih =>
    intro t ht p h
    rw [encBytesN] at h
    split at h
    · rename_i u k hr
      split at h
      · rw [okay_fail_iff] at h; exact h.elim
      · rename_i hn
        have hn := Decidable.not_not.1 hn
        have := emits_items (bytes_kids (ctx := ctx) (P := P) bs) (sensible_ref ht hr (by simp [TypeDef.refs])) h
        rw [hf, hk, hn] at this
        exact EmitsAll.array hr this
    · rename_i u hr
      rw [okay_seq_iff (append_write _) (append_items (kids_app (bytes_kids (ctx := ctx) (P := P) bs)) _ _ _)] at h
      obtain ⟨x, y, h1, h2, rfl⟩ := h
      rw [okay_write_iff] at h1; subst h1
      have := emits_items (bytes_kids (ctx := ctx) (P := P) bs) (sensible_ref ht hr (by simp [TypeDef.refs])) h2
      rw [hf, hk] at this
      exact EmitsAll.sequence hr hl this
    · rename_i f hr
      exact EmitsAll.composite hr (EmitsAll.one (ih f.id (sensible_ref ht hr (by simp [TypeDef.refs])) p h))
    · rename_i u hr
      exact EmitsAll.tuple hr (EmitsAll.one (ih u (sensible_ref ht hr (by simp [TypeDef.refs])) p h))
    · rw [okay_fail_iff] at h; exact h.elim
    · rw [okay_fail_iff] at h; exact h.elim

theorem emits_primitive {cc : Bool} {p : Primitive} (hp : ∀ s, p = .string s → (utf8Bytes s).length < 2 ^ 32) {t : Id} (ht : Sensible reg t) {bs}
    (h : Okay (encPrimitive reg cc p t) bs) : Emits reg ctx P p.leaves t bs := by
  have hr := (findSingle_innermost reg t).1
  unfold encPrimitive at h
  split at h
  · obtain ⟨h1, rfl⟩ := okay_bool_iff.1 h
    exact Emits.wrap hr (emits_prim (.bool h1) (by rw [leaves_prim]))
  · exact emits_num ht (fun _ => ⟨_, rfl⟩) h
  · rename_i s
    obtain ⟨h1, rfl⟩ := okay_str_iff.1 h
    have hl := hp s rfl
    exact Emits.wrap hr (emits_prim (.str h1 ((isCompact_iff (by omega)).2 rfl) (by omega) (fun _ => hl)) (by rw [leaves_prim]))
  · exact emits_num ht (by simp) h
  · exact emits_num ht (by simp) h
  · rename_i b; exact emits_bytes b.bytes (by have := b.len; omega) _ t ht bs h
  · rename_i b; exact emits_bytes b.bytes (by have := b.len; omega) _ t ht bs h

/-! ### Values -/

theorem bit_leaves {v : Value Γ} {b : Bool} (h : bitOf v = some b) : v.leaves = [.bit b] := by
  have := bitOf_iff.1 h
  cases this with
  | bool => rw [leaves_prim, Primitive.leaves]
  | u128 h => rw [leaves_prim, Primitive.leaves, h, Datum.bit]; cases b <;> rfl
  | i128 h => rw [leaves_prim, Primitive.leaves, h, Datum.bit]

theorem kids_of {cc : Bool} {c : Composite Γ} (ih : ∀ v ∈ c.vals, ∀ t, Sensible reg t → ∀ bs, Okay (v.encode reg cc t) bs → Emits reg ctx P v.leaves t bs) :
    List.Forall₂ (Kid reg ctx P) (c.encChildren reg cc) (c.vals.map Value.leaves) := by
  have h := children_cases reg cc c
  generalize c.encChildren reg cc = cs at h
  generalize c.vals = vs at h ih
  induction h with
  | nil => exact .nil
  | @cons k v cs vs h _ ih' =>
    refine .cons ⟨fun t => by rw [h.1]; exact append_value reg cc v t, ?_, ?_⟩ (ih' (fun w hw => ih w (by simp [hw])))
    · intro t ht bs ho; rw [h.1] at ho; exact ih v (by simp) t ht bs ho
    · intro b hb; rw [h.2] at hb; exact bit_leaves hb

theorem sized_sub {v w : Value Γ} (h : Sized v) (hw : w ∈ v.children) : Sized w :=
  ⟨fun x hx => h.1 x (.child hw hx), fun x b hx => h.2 x b (.child hw hx)⟩

theorem noNames_sub {v w : Value Γ} (h : NoNames v) (hw : w ∈ v.children) : NoNames w := fun x c hx => h x c (.child hw hx)

theorem fields_children {v : Value Γ} {c : Composite Γ} (h : v.fields? = some c) : v.children = c.vals := by
  unfold Value.fields? at h
  split at h
  · cases h; cases c <;> rfl
  · cases h; cases c <;> rfl
  · cases h

theorem encode_emits (cc : Bool) (v : Value Γ) : Sized v → ∀ t, Sensible reg t → ∀ bs, Okay (v.encode reg cc t) bs → Emits reg ctx (NoNames v) v.leaves t bs := by
  have hcomp : ∀ (v : Value Γ) (c : Composite Γ), v.fields? = some c → Sized v →
      (∀ w ∈ c.vals, Sized w → ∀ t, Sensible reg t → ∀ bs, Okay (w.encode reg cc t) bs → Emits reg ctx (NoNames w) w.leaves t bs) →
      List.Forall₂ (Kid reg ctx (NoNames v)) (c.encChildren reg cc) (c.vals.map Value.leaves) ∧ (NoNames v → ∀ k ∈ c.encChildren reg cc, k.name = none) ∧
        (c.encChildren reg cc).length < 2 ^ 32 := by
    intro v c hv hs ih
    have hch := fields_children hv
    refine ⟨kids_of (fun w hw t ht bs ho => ?_), ?_, ?_⟩
    · have hw' : w ∈ v.children := by rw [hch]; exact hw
      exact (ih w hw (sized_sub hs hw') t ht bs ho).mono (fun h => noNames_sub h hw')
    · intro hn k hk
      obtain ⟨vs, rfl⟩ := hn v c (.self v) hv
      exact unnamed_none reg cc vs k hk
    · rw [forall₂_length (children_cases reg cc c)]
      have := (hs.1 v (.self v)).1 c hv
      have e : c.vals.length = c.len := by cases c <;> simp [Composite.vals, Composite.len]
      omega
  have hmain : ∀ (c : Composite Γ) (x : Γ), (∀ w ∈ c.vals, Sized w → ∀ t, Sensible reg t → ∀ bs, Okay (w.encode reg cc t) bs → Emits reg ctx (NoNames w) w.leaves t bs) →
      Sized (Value.mk (.composite c) x) → ∀ t, Sensible reg t → ∀ bs, Okay ((Value.mk (.composite c) x).encode reg cc t) bs →
        Emits reg ctx (NoNames (Value.mk (.composite c) x)) (Value.mk (.composite c) x).leaves t bs := by
    intro c x ih hs t ht bs ho
    obtain ⟨h1, h2, h3⟩ := hcomp _ c rfl hs ih
    rw [enc_composite] at ho
    rw [leaves_composite, valueLeaves_eq]
    exact emits_composite h1 h2 h3 ht ho
  have hvar : ∀ (n : Str) (c : Composite Γ) (x : Γ), (∀ w ∈ c.vals, Sized w → ∀ t, Sensible reg t → ∀ bs, Okay (w.encode reg cc t) bs → Emits reg ctx (NoNames w) w.leaves t bs) →
      Sized (Value.mk (.variant (.mk n c)) x) → ∀ t, Sensible reg t → ∀ bs, Okay ((Value.mk (.variant (.mk n c)) x).encode reg cc t) bs →
        Emits reg ctx (NoNames (Value.mk (.variant (.mk n c)) x)) (Value.mk (.variant (.mk n c)) x).leaves t bs := by
    intro n c x ih hs t ht bs ho
    obtain ⟨h1, h2, h3⟩ := hcomp _ c rfl hs ih
    rw [enc_variant] at ho
    rw [leaves_variant, valueLeaves_eq]
    exact emits_variant h1 h2 ht ho
  induction v using Value.ind with
  | named fs x ih =>
    refine hmain _ x ?_
    intro w hw; simp only [Composite.vals, List.mem_map] at hw
    obtain ⟨p, hp, rfl⟩ := hw
    exact ih p hp
  | unnamed vs x ih => exact hmain _ x (by simpa [Composite.vals] using ih)
  | vnamed n fs x ih =>
    refine hvar n _ x ?_
    intro w hw; simp only [Composite.vals, List.mem_map] at hw
    obtain ⟨p, hp, rfl⟩ := hw
    exact ih p hp
  | vunnamed n vs x ih => exact hvar n _ x (by simpa [Composite.vals] using ih)
  | bits b x =>
    intro hs t ht bs ho
    rw [enc_bits] at ho
    obtain ⟨s, o, h1, rfl⟩ := okay_bits_iff.1 ho
    rw [leaves_bits]
    exact Emits.wrap (findSingle_innermost reg t).1 (emits_bits h1 (hs.2 _ b (.self _) rfl))
  | prim p x =>
    intro hs t ht bs ho
    rw [enc_prim] at ho
    rw [leaves_prim]
    exact emits_primitive (fun s h => (hs.1 _ (.self _)).2 s (by rw [h]; rfl)) ht ho

end SV
