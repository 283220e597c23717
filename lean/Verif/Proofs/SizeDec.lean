import Verif.Proofs.Size
import Verif.Proofs.Trace
import Mathlib.Tactic.Ring
import Mathlib.Tactic.Linarith
/-
Sizes of what is decoded.
-/
namespace SV

variable {Id Γ : Type}

theorem fieldsSize_zip : ∀ (names : List Str) (vs : List (Value Γ)), fieldsSize (names.zip vs) ≤ valuesSize vs
  | [], vs => by simp [fieldsSize]
  | _ :: _, [] => by simp [fieldsSize]
  | n :: ns, v :: vs => by simp [fieldsSize, valuesSize]; exact fieldsSize_zip ns vs

theorem shape_size {fs : List (Field Id)} {vs : List (Value Γ)} {cs : Composite Γ} (h : HasShape fs vs cs) (x : Γ) (n : Str) :
    (Value.mk (.composite cs) x).size ≤ 1 + valuesSize vs ∧ (Value.mk (.variant (.mk n cs)) x).size ≤ 1 + valuesSize vs := by
  cases h with
  | named _ _ => simp [Value.size]; exact fieldsSize_zip _ _
  | unnamed _ => simp [Value.size]

/-- What is needed of a type: bounds on the ranks and on the numbers of fields, and that elements take bytes. -/
structure Bounded (reg : Reg Id) (R W : Nat) (ctx : Id → Γ) (canon : Prop) (i256 : Bytes32 → Primitive) (t : Id) : Prop where
  rank : ∀ u, Reach reg t u → reg.rank u ≤ R
  tuple : ∀ u ts, Reach reg t u → reg.resolve u = some (.tuple ts) → ts.length ≤ W
  composite : ∀ u fs, Reach reg t u → reg.resolve u = some (.composite fs) → fs.length ≤ W
  variant : ∀ u ds d, Reach reg t u → reg.resolve u = some (.variant ds) → d ∈ ds → d.fields.length ≤ W
  seq : ∀ u w v, Reach reg t u → reg.resolve u = some (.sequence w) → ¬ Scale reg canon i256 ctx false w v []
  array : ∀ u w n v, Reach reg t u → reg.resolve u = some (.array w n) → ¬ Scale reg canon i256 ctx false w v []

theorem Reach.trans {reg : Reg Id} {a b c : Id} (h : Reach reg a b) (h' : Reach reg b c) : Reach reg a c := by
  induction h' with
  | self => exact h
  | step _ h1 h2 ih => exact .step ih h1 h2

theorem Bounded.ref {reg : Reg Id} {R W : Nat} {ctx : Id → Γ} {canon : Prop} {i256 : Bytes32 → Primitive} {t w : Id} {d : TypeDef Id}
    (h : Bounded reg R W ctx canon i256 t) (ht : reg.resolve t = some d) (hw : w ∈ d.refs) : Bounded reg R W ctx canon i256 w := by
  have hr : ∀ u, Reach reg w u → Reach reg t u := fun u hu => Reach.trans (.step .self ht hw) hu
  exact ⟨fun u hu => h.rank u (hr u hu), fun u ts hu => h.tuple u ts (hr u hu), fun u fs hu => h.composite u fs (hr u hu),
    fun u ds d hu => h.variant u ds d (hr u hu), fun u x v hu => h.seq u x v (hr u hu), fun u x n v hu => h.array u x n v (hr u hu)⟩

/-- How much of a value takes no bytes. -/
def frame (W k : Nat) : Nat := (W + 2) ^ (k + 1)

theorem frame_pos (W k : Nat) : 1 ≤ frame W k := Nat.one_le_pow _ _ (by omega)

theorem frame_le (W : Nat) {k l : Nat} (h : k ≤ l) : frame W k ≤ frame W l := Nat.pow_le_pow_right (by omega) (by omega)

theorem frame_step {W k l : Nat} (h : k < l) : (W + 1) * frame W k + 1 ≤ frame W l := by
  have h1 : frame W (k + 1) ≤ frame W l := frame_le W h
  have h2 : frame W (k + 1) = (W + 2) * frame W k := by unfold frame; rw [Nat.pow_succ]; ring
  have h3 := frame_pos W k
  have h4 : (W + 2) * frame W k = (W + 1) * frame W k + frame W k := by ring
  omega

/-- The bound for one value of `b` bytes, at a type of the rank `k`. -/
def Fits (R W k size b : Nat) : Prop :=
  size + (if b = 0 then 0 else frame W (R + 1)) ≤ frame W k + (2 * frame W (R + 1) + 8) * b

theorem fits_of {R W k size b : Nat} (hb : 0 < b) (h : size + frame W (R + 1) ≤ (2 * frame W (R + 1) + 8) * b) : Fits R W k size b := by
  unfold Fits
  rw [if_neg (by omega)]
  omega

theorem fits_leaf {R W k b : Nat} (hb : 0 < b) : Fits R W k 1 b := by
  refine fits_of hb ?_
  have : (2 * frame W (R + 1) + 8) * 1 ≤ (2 * frame W (R + 1) + 8) * b := Nat.mul_le_mul_left _ hb
  omega

theorem fits_more {R W k size b n : Nat} (hb : 0 < b) (h : size ≤ 1 + 8 * n) : Fits R W k size (b + n) := by
  refine fits_of (by omega) ?_
  rw [Nat.mul_add]
  have h1 : (2 * frame W (R + 1) + 8) * 1 ≤ (2 * frame W (R + 1) + 8) * b := Nat.mul_le_mul_left _ hb
  have h2 : 8 * n ≤ (2 * frame W (R + 1) + 8) * n := Nat.mul_le_mul_right _ (by omega)
  omega

/-- The bound for several values. -/
def FitsAll (R W k m size b : Nat) : Prop :=
  size + (if b = 0 then 0 else frame W (R + 1)) ≤ m * frame W k + (2 * frame W (R + 1) + 8) * b

theorem length_le_utf8 (s : Str) : s.length ≤ (utf8Bytes s).length := by
  induction s with
  | nil => simp
  | cons c s ih =>
    have : 1 ≤ (String.utf8EncodeChar c).length := by simp; exact Char.utf8Size_pos c
    rw [utf8Bytes_cons]; simp at *; omega

theorem fits_group {R W k l m size b : Nat} (h : FitsAll R W k m size b) (hkl : k < l) (hm : m ≤ W) : Fits R W l (1 + size) b := by
  unfold FitsAll at h
  unfold Fits
  have h1 := frame_step (W := W) hkl
  have h2 : m * frame W k ≤ (W + 1) * frame W k := Nat.mul_le_mul_right _ (by omega)
  omega

theorem fits_variant {R W k m size b : Nat} (h : FitsAll R W R m size b) (hm : m ≤ W) : Fits R W k (1 + size) (b + 1) := by
  unfold FitsAll at h
  refine fits_of (by omega) ?_
  have h1 := frame_step (W := W) (Nat.lt_succ_self R)
  have h2 : m * frame W R ≤ (W + 1) * frame W R := Nat.mul_le_mul_right _ (by omega)
  rw [Nat.mul_add]
  simp only [Nat.succ_eq_add_one] at h1
  split at h <;> omega

theorem fitsAll_cons {R W k m s1 s2 b1 b2 : Nat} (h1 : Fits R W k s1 b1) (h2 : FitsAll R W k m s2 b2) : FitsAll R W k (m + 1) (s1 + s2) (b1 + b2) := by
  unfold Fits at h1
  unfold FitsAll at *
  rw [Nat.mul_add, Nat.add_mul]
  split at h1 <;> split at h2 <;> split <;> omega

theorem fits_up {R W k l s b : Nat} (h : Fits R W k s b) (hk : k ≤ l) : Fits R W l s b := by
  have := frame_le W hk
  unfold Fits at *
  omega

/-- Elements that take at least a byte each. -/
theorem fits_element {R W k s b : Nat} (h : Fits R W k s b) (hk : k ≤ R) (hb : b ≠ 0) : s ≤ (2 * frame W (R + 1) + 8) * b := by
  have := frame_le W (show k ≤ R + 1 by omega)
  unfold Fits at h
  rw [if_neg hb] at h
  omega

theorem scale_size {reg : Reg Id} {canon : Prop} {i256 : Bytes32 → Primitive} (hi : ∀ b s, i256 b ≠ .string s) {ctx : Id → Γ} {R W : Nat} {c t} {v : Value Γ} {p}
    (h : Scale reg canon i256 ctx c t v p) : Bounded reg R W ctx canon i256 t → Fits R W (reg.rank t) v.size p.length := by
  refine Scale.rec (motive_1 := fun c t v p _ => Bounded reg R W ctx canon i256 t → Fits R W (reg.rank t) v.size p.length)
    (motive_2 := fun c ts vs p _ => (∀ u ∈ ts, Bounded reg R W ctx canon i256 u) →
      (∀ k, (∀ u ∈ ts, reg.rank u ≤ k) → FitsAll R W k ts.length (valuesSize vs) p.length) ∧
      ((∀ u ∈ ts, ∀ v, ¬ Scale reg canon i256 ctx c u v []) → valuesSize vs ≤ (2 * frame W (R + 1) + 8) * p.length ∧
        ∀ k, ts ≠ [] → (∀ u ∈ ts, reg.rank u ≤ k) → Fits R W k (valuesSize vs) p.length))
    ?_ ?_ ?_ ?_ ?_ ?_ ?_ ?_ ?_ ?_ ?_ ?_ ?_ ?_ ?_ ?_ ?_ h
  · intro t b ht _
    exact fits_leaf (by simp)
  · intro t c bs ht hb _
    exact fits_leaf (by rw [hb.1]; omega)
  · intro t s p ht hp hl _ _
    have := length_le_utf8 s
    rw [List.length_append]
    refine fits_more (List.length_pos_iff.2 (isCompact_ne_nil hp)) ?_
    simp only [Value.size]; omega
  · intro t p k n bs ht hk hb _
    refine fits_leaf ?_
    rw [hb.1]; cases hk <;> omega
  · intro t p k n bs ht hk hb _
    refine fits_leaf ?_
    rw [hb.1]; cases hk <;> omega
  · intro t b ht _
    exact fits_leaf (by rw [b.len]; omega)
  · intro t b ht _
    have : (Value.mk (ValueDef.primitive (i256 b)) (ctx t)).size = 1 := by
      have := hi b
      cases h : i256 b <;> simp [Value.size]
      exact absurd h (this _)
    rw [this]
    exact fits_leaf (by rw [b.len]; omega)
  · intro t u v bs ht _ ih hb
    have hu := ih (hb.ref ht (by simp [TypeDef.refs]))
    have := reg.rank_lt t _ u ht (by simp [TypeDef.inline])
    exact fits_up hu (by omega)
  · intro t p k n bs ht hk hn hb _
    exact fits_leaf (List.length_pos_iff.2 (isCompact_ne_nil hb))
  · intro t u vs p bs ht hp hl _ _ ih hb
    have hu := hb.ref ht (w := u) (by simp [TypeDef.refs])
    obtain ⟨-, h2⟩ := ih (fun w hw => by rw [List.eq_of_mem_replicate hw]; exact hu)
    obtain ⟨h2, -⟩ := h2 (fun w hw => by rw [List.eq_of_mem_replicate hw]; exact fun v => hb.seq t u v .self ht)
    have hp' := List.length_pos_iff.2 (isCompact_ne_nil hp)
    simp only [Value.size, List.length_append]
    refine fits_of (by omega) ?_
    rw [Nat.mul_add]
    have h1 : (2 * frame W (R + 1) + 8) * 1 ≤ (2 * frame W (R + 1) + 8) * p.length := Nat.mul_le_mul_left _ hp'
    omega
  · intro t u m vs bs ht hall ih hb
    have hu := hb.ref ht (w := u) (by simp [TypeDef.refs])
    have hr := reg.rank_lt t _ u ht (by simp [TypeDef.inline])
    obtain ⟨-, h2⟩ := ih (fun w hw => by rw [List.eq_of_mem_replicate hw]; exact hu)
    obtain ⟨-, h2⟩ := h2 (fun w hw => by rw [List.eq_of_mem_replicate hw]; exact fun v => hb.array t u m v .self ht)
    simp only [Value.size]
    cases m with
    | zero =>
      cases hall
      have := frame_pos W (reg.rank t)
      simpa [Fits, valuesSize] using this
    | succ m =>
      have := h2 (reg.rank u) (by simp [List.replicate_succ]) (fun w hw => by rw [List.eq_of_mem_replicate hw])
      have h3 := frame_step (W := W) hr
      have h4 : 1 * frame W (reg.rank u) ≤ (W + 1) * frame W (reg.rank u) := Nat.mul_le_mul_right _ (by omega)
      unfold Fits at *
      omega
  · intro c t ts vs bs ht hc hall ih hb
    have h1 := ih (fun w hw => hb.ref ht (by simpa [TypeDef.refs] using hw))
    simp only [Value.size]
    have hr : ∀ w ∈ ts, reg.rank w < reg.rank t := fun w hw => reg.rank_lt t _ w ht (by simpa [TypeDef.inline] using hw)
    cases ts with
    | nil =>
      cases hall
      have := frame_pos W (reg.rank t)
      simpa [Fits, valuesSize] using this
    | cons a as =>
      have := hr a (by simp)
      exact fits_group (h1.1 (reg.rank t - 1) (fun w hw => by have := hr w hw; omega)) (by omega) (hb.tuple t _ .self ht)
  · intro c t fs vs cs bs ht hc hall hs ih hb
    have h1 := ih (fun w hw => hb.ref ht (by simpa [TypeDef.refs] using hw))
    have hsz := (shape_size hs (ctx t) []).1
    have hr : ∀ w ∈ fs.map (fun f => f.id), reg.rank w < reg.rank t := fun w hw => reg.rank_lt t _ w ht (by simpa [TypeDef.inline] using hw)
    have key : Fits R W (reg.rank t) (1 + valuesSize vs) bs.length := by
      cases fs with
      | nil =>
        cases hall
        have := frame_pos W (reg.rank t)
        simpa [Fits, valuesSize] using this
      | cons a as =>
        have := hr a.id (by simp)
        exact fits_group (h1.1 (reg.rank t - 1) (fun w hw => by have := hr w hw; omega)) (by omega) (by have := hb.composite t _ .self ht; simpa using this)
    unfold Fits at *
    omega
  · intro t ds d vs cs bs ht hd hall hs ih hb
    have hmem : d ∈ ds := List.mem_of_find?_eq_some hd
    have hbf : ∀ w ∈ d.fields.map (fun f => f.id), Bounded reg R W ctx canon i256 w := fun w hw => hb.ref ht (by
      simp only [TypeDef.refs, List.mem_flatMap]; exact ⟨d, hmem, hw⟩)
    have h1 := ih hbf
    have hsz := (shape_size hs (ctx t) d.name).2
    have key : Fits R W (reg.rank t) (1 + valuesSize vs) (bs.length + 1) :=
      fits_variant (h1.1 R (fun w hw => (hbf w hw).rank w .self)) (by have := hb.variant t ds d .self ht hmem; simpa using this)
    rw [List.length_cons]
    unfold Fits at *
    omega
  · intro t s o b p q ht hp hl hq _
    rw [List.length_append]
    refine fits_more (List.length_pos_iff.2 (isCompact_ne_nil hp)) ?_
    have := hq.2.1
    simp only [Value.size]; omega
  · intro c _
    exact ⟨fun k _ => by simp [FitsAll, valuesSize], fun _ => ⟨by simp [valuesSize], fun k h => absurd rfl h⟩⟩
  · intro c t ts v vs bs bs' h1 h2 ih1 ih2 hb
    have a1 := ih1 (hb t (by simp))
    have a2 := ih2 (fun w hw => hb w (List.mem_cons_of_mem _ hw))
    simp only [valuesSize, List.length_append, List.length_cons]
    refine ⟨fun k hk => fitsAll_cons (fits_up a1 (hk t (by simp))) (a2.1 k (fun w hw => hk w (List.mem_cons_of_mem _ hw))), ?_⟩
    intro hf
    have hne : bs.length ≠ 0 := by
      intro h
      rw [List.length_eq_zero_iff] at h
      subst h
      exact hf t (by simp) v h1
    have b1 := fits_element a1 ((hb t (by simp)).rank t .self) hne
    obtain ⟨b2, -⟩ := a2.2 (fun w hw => hf w (List.mem_cons_of_mem _ hw))
    refine ⟨by rw [Nat.mul_add]; omega, ?_⟩
    intro k _ hk
    have a1 := fits_up a1 (hk t (by simp))
    unfold Fits at *
    rw [if_neg hne] at a1
    rw [if_neg (by omega), Nat.mul_add]
    omega

/-! ### Depth -/

theorem shape_children {fs : List (Field Id)} {vs : List (Value Γ)} {cs : Composite Γ} (h : HasShape fs vs cs) (x : Γ) (n : Str) :
    (∀ w ∈ (Value.mk (.composite cs) x).children, w ∈ vs) ∧ (∀ w ∈ (Value.mk (.variant (.mk n cs)) x).children, w ∈ vs) := by
  cases h with
  | named _ _ =>
    have : ∀ (names : List Str) w, w ∈ (names.zip vs).map (fun p => p.2) → w ∈ vs := by
      intro names w hw
      obtain ⟨⟨a, b⟩, h1, rfl⟩ := List.mem_map.1 hw
      exact (List.of_mem_zip h1).2
    exact ⟨this _, this _⟩
  | unnamed _ => exact ⟨fun _ h => h, fun _ h => h⟩

theorem scale_deep {reg : Reg Id} {canon : Prop} {i256 : Bytes32 → Primitive} {ctx : Id → Γ} {R : Nat} {c t} {v : Value Γ} {p}
    (h : Scale reg canon i256 ctx c t v p) : (∀ u, Reach reg t u → reg.rank u ≤ R) → ∀ n, Deep v n → n ≤ reg.rank t + 1 + (R + 2) * p.length := by
  have sub : ∀ {t w d}, reg.resolve t = some d → w ∈ d.refs → (∀ u, Reach reg t u → reg.rank u ≤ R) → ∀ u, Reach reg w u → reg.rank u ≤ R :=
    fun ht hw h u hu => h u (Reach.trans (.step .self ht hw) hu)
  refine Scale.rec (motive_1 := fun c t v p _ => (∀ u, Reach reg t u → reg.rank u ≤ R) → ∀ n, Deep v n → n ≤ reg.rank t + 1 + (R + 2) * p.length)
    (motive_2 := fun c ts vs p _ => (∀ u ∈ ts, ∀ w, Reach reg u w → reg.rank w ≤ R) →
      ∀ v ∈ vs, ∀ n, Deep v n → ∃ u ∈ ts, n ≤ reg.rank u + 1 + (R + 2) * p.length)
    ?_ ?_ ?_ ?_ ?_ ?_ ?_ ?_ ?_ ?_ ?_ ?_ ?_ ?_ ?_ ?_ ?_ h
  · intro t b ht _ n hn
    have := deep_leaf hn rfl; omega
  · intro t c bs ht hb _ n hn
    have := deep_leaf hn rfl; omega
  · intro t s p ht hp hl _ _ n hn
    have := deep_leaf hn rfl; omega
  · intro t p k n bs ht hk hb _ n hn
    have := deep_leaf hn rfl; omega
  · intro t p k n bs ht hk hb _ n hn
    have := deep_leaf hn rfl; omega
  · intro t b ht _ n hn
    have := deep_leaf hn rfl; omega
  · intro t b ht _ n hn
    have := deep_leaf hn rfl; omega
  · intro t u v bs ht _ ih hb n hn
    have := ih (sub ht (by simp [TypeDef.refs]) hb) n hn
    have := reg.rank_lt t _ u ht (by simp [TypeDef.inline])
    omega
  · intro t p k n bs ht hk hn hb _ n hn
    have := deep_leaf hn rfl; omega
  · intro t u vs p bs ht hp hl _ _ ih hb n hn
    have hp' := List.length_pos_iff.2 (isCompact_ne_nil hp)
    rw [List.length_append, Nat.mul_add]
    have h1 : (R + 2) * 1 ≤ (R + 2) * p.length := Nat.mul_le_mul_left _ hp'
    cases hn with
    | here => omega
    | inside h2 h3 =>
      obtain ⟨w, hw, hk⟩ := ih (fun w hw => by rw [List.eq_of_mem_replicate hw]; exact sub ht (by simp [TypeDef.refs]) hb) _ h2 _ h3
      rw [List.eq_of_mem_replicate hw] at hk
      have := hb u (.step .self ht (by simp [TypeDef.refs]))
      omega
  · intro t u m vs bs ht hall ih hb n hn
    have hr := reg.rank_lt t _ u ht (by simp [TypeDef.inline])
    cases hn with
    | here => omega
    | inside h2 h3 =>
      obtain ⟨w, hw, hk⟩ := ih (fun w hw => by rw [List.eq_of_mem_replicate hw]; exact sub ht (by simp [TypeDef.refs]) hb) _ h2 _ h3
      rw [List.eq_of_mem_replicate hw] at hk
      omega
  · intro c t ts vs bs ht hc hall ih hb n hn
    cases hn with
    | here => omega
    | inside h2 h3 =>
      obtain ⟨w, hw, hk⟩ := ih (fun w hw => sub ht (by simpa [TypeDef.refs] using hw) hb) _ h2 _ h3
      have := reg.rank_lt t _ w ht (by simpa [TypeDef.inline] using hw)
      omega
  · intro c t fs vs cs bs ht hc hall hs ih hb n hn
    cases hn with
    | here => omega
    | inside h2 h3 =>
      obtain ⟨w, hw, hk⟩ := ih (fun w hw => sub ht (by simpa [TypeDef.refs] using hw) hb) _ ((shape_children hs (ctx t) []).1 _ h2) _ h3
      have := reg.rank_lt t _ w ht (by simpa [TypeDef.inline] using hw)
      omega
  · intro t ds d vs cs bs ht hd hall hs ih hb n hn
    have hmem : d ∈ ds := List.mem_of_find?_eq_some hd
    have hin : ∀ w ∈ d.fields.map (fun f => f.id), w ∈ (TypeDef.variant ds).refs := fun w hw => by
      simp only [TypeDef.refs, List.mem_flatMap]; exact ⟨d, hmem, hw⟩
    rw [List.length_cons, Nat.mul_add]
    cases hn with
    | here => omega
    | inside h2 h3 =>
      obtain ⟨w, hw, hk⟩ := ih (fun w hw => sub ht (hin w hw) hb) _ ((shape_children hs (ctx t) _).2 _ h2) _ h3
      have := hb w (.step .self ht (hin w hw))
      omega
  · intro t s o b p q ht hp hl hq _ n hn
    have := deep_leaf hn rfl; omega
  · intro c _ v hv; cases hv
  · intro c t ts v vs bs bs' h1 h2 ih1 ih2 hb w hw n hn
    rw [List.length_append, Nat.mul_add]
    rcases List.mem_cons.1 hw with rfl | hw
    · have := ih1 (hb t (by simp)) n hn
      exact ⟨t, by simp, by omega⟩
    · obtain ⟨x, hx, hk⟩ := ih2 (fun w hw => hb w (List.mem_cons_of_mem _ hw)) w hw n hn
      exact ⟨x, List.mem_cons_of_mem _ hx, by omega⟩

/-! ### The recursion of the decoders -/

theorem visitPlain_refs {reg : Reg Id} {t : Id} {bs : List UInt8} {s : DStep Id} (h : visitPlain reg t bs = .ok s) : ∀ w ∈ s.children, Reach reg t w := by
  unfold visitPlain at h
  split at h
  · cases h
  · rename_i p ht
    cases hr : readPrim p bs with
    | error e => rw [hr] at h; cases h
    | ok x => rw [hr] at h; cases h; intro u hu; cases hu
  · rename_i fs ht
    cases h
    intro u hu
    exact .step .self ht hu
  · rename_i ts ht
    cases h
    intro u hu
    exact .step .self ht hu
  · rename_i v n ht
    cases h
    intro u hu
    rw [List.eq_of_mem_replicate hu]
    exact .step .self ht (by simp [TypeDef.refs])
  · rename_i v ht
    split at h
    · cases h
    · cases h
      intro u hu
      rw [List.eq_of_mem_replicate hu]
      exact .step .self ht (by simp [TypeDef.refs])
  · rename_i ds ht
    split at h
    · cases h
    · split at h
      · cases h
      · rename_i d hd
        cases h
        intro u hu
        refine .step .self ht ?_
        simp only [TypeDef.refs, List.mem_flatMap]
        exact ⟨d, List.mem_of_find?_eq_some hd, hu⟩
  · split at h
    · cases h
    · cases h; intro u hu; cases hu
  · cases h

theorem visitCompact_refs {reg : Reg Id} {t : Id} {bs : List UInt8} {s : DStep Id} (h : visitCompact reg t bs = .ok s) : ∀ w ∈ s.children, Reach reg t w := by
  unfold visitCompact at h
  split at h
  · cases h
  · rename_i p ht
    cases hr : readCompactPrim p bs with
    | error e => rw [hr] at h; cases h
    | ok x => rw [hr] at h; cases h; intro u hu; cases hu
  · rename_i fs ht
    split at h
    · cases h
      intro u hu
      exact .step .self ht hu
    · cases h
  · rename_i ts ht
    split at h
    · cases h
      intro u hu
      exact .step .self ht hu
    · cases h
  · cases h

theorem visit_refs {reg : Reg Id} {c : Bool} {t : Id} {bs : List UInt8} {w : Visit Id} (h : visit reg c t bs = .ok w) : ∀ u ∈ w.step.children, Reach reg t u := by
  unfold visit at h
  split at h
  · cases hv : visitCompact reg t bs with
    | error e => rw [hv] at h; cases h
    | ok s => rw [hv] at h; cases h; exact visitCompact_refs hv
  · split at h
    · rename_i x hx
      cases hv : visitCompact reg x bs with
      | error e => rw [hv] at h; cases h
      | ok s =>
        rw [hv] at h; cases h
        intro u hu
        exact Reach.trans (.step .self hx (by simp [TypeDef.refs])) (visitCompact_refs hv u hu)
    · cases hv : visitPlain reg t bs with
      | error e => rw [hv] at h; cases h
      | ok s => rw [hv] at h; cases h; exact visitPlain_refs hv

theorem decItems_total {reg : Reg Id} {al : Nat → Bool} {ctx : Id → Γ} {c : Bool} {n : Nat} : ∀ (ts : List Id) (L : Nat),
    (∀ u ∈ ts, ∀ bs, bs.length ≤ L → ∃ r, decN reg al ctx n c u bs = some r) → ∀ bs, bs.length ≤ L → ∃ r, decItems (decN reg al ctx n c) ts bs = some r := by
  intro ts L
  induction ts with
  | nil => intro _ bs _; exact ⟨_, rfl⟩
  | cons t ts ih =>
    intro h bs hb
    obtain ⟨r1, h1⟩ := h t (by simp) bs hb
    rw [decItems, h1]
    cases r1 with
    | panic => exact ⟨_, rfl⟩
    | err e => exact ⟨_, rfl⟩
    | ok x =>
      obtain ⟨v, r⟩ := x
      obtain ⟨p, rfl, -⟩ := decN_sound reg al ctx n _ _ _ _ _ h1
      obtain ⟨r2, h2⟩ := ih (fun u hu => h u (List.mem_cons_of_mem _ hu)) r (by simp at hb; omega)
      simp only
      rw [h2]
      cases r2 <;> exact ⟨_, rfl⟩

theorem mkVal_total {mk : Composite Γ → Value Γ} {o : Option (Out (DErr × List UInt8) (Composite Γ × List UInt8))} (h : ∃ r, o = some r) : ∃ r, mkVal mk o = some r := by
  obtain ⟨r, rfl⟩ := h
  cases r <;> exact ⟨_, rfl⟩

theorem child_depth {reg : Reg Id} {R : Nat} {c : Bool} {t : Id} {bs : List UInt8} {w : Visit Id} (hv : visit reg c t bs = .ok w)
    (hR : ∀ u, Reach reg t u → reg.rank u ≤ R) {n : Nat} (hn : reg.rank t + 1 + (R + 2) * bs.length ≤ n + 1) {u : Id} (hu : u ∈ w.step.children)
    {bs' : List UInt8} (hb : bs'.length ≤ w.step.bytes.length) : reg.rank u + 1 + (R + 2) * bs'.length ≤ n := by
  have h1 := hR u (visit_refs hv u hu)
  have h2 : (R + 2) * bs'.length ≤ (R + 2) * w.step.bytes.length := Nat.mul_le_mul_left _ hb
  rcases visit_children hv u hu with h | ⟨h, h'⟩
  · have h3 : (R + 2) * (w.step.bytes.length + 1) ≤ (R + 2) * bs.length := Nat.mul_le_mul_left _ h
    rw [Nat.mul_add] at h3
    omega
  · have h3 : (R + 2) * w.step.bytes.length ≤ (R + 2) * bs.length := Nat.mul_le_mul_left _ h
    omega

theorem decN_depth (reg : Reg Id) (al : Nat → Bool) (ctx : Id → Γ) (R : Nat) : ∀ n c t bs, (∀ u, Reach reg t u → reg.rank u ≤ R) →
    reg.rank t + 1 + (R + 2) * bs.length ≤ n → ∃ r, decN reg al ctx n c t bs = some r := by
  intro n
  induction n with
  | zero => intro c t bs _ h; omega
  | succ n ih =>
    intro c t bs hR hn
    rw [decN]
    cases hv : visit reg c t bs with
    | error e => exact ⟨_, rfl⟩
    | ok w =>
      have hit : ∀ c', ∃ r, decItems (decN reg al ctx n c') w.step.children w.step.bytes = some r := by
        intro c'
        refine decItems_total _ w.step.bytes.length ?_ _ (Nat.le_refl _)
        intro u hu bs' hb'
        exact ih c' u bs' (fun x hx => hR x (Reach.trans (visit_refs hv u hu) hx)) (child_depth hv hR hn hu hb')
      obtain ⟨ty, c', s⟩ := w
      obtain ⟨o, ho⟩ := hit c'
      cases s with
      | leaf l r => exact ⟨_, rfl⟩
      | items ts r =>
        refine mkVal_total ?_
        have ho : decItems (decN reg al ctx n c') ts r = some o := ho
        unfold decUnnamed
        rw [ho]
        split
        · exact ⟨_, rfl⟩
        · cases o <;> exact ⟨_, rfl⟩
      | composite fs r =>
        refine mkVal_total ?_
        have ho : decItems (decN reg al ctx n c') (fs.map (fun f => f.id)) r = some o := ho
        rw [decComposite_eq, ho]
        split
        · exact ⟨_, rfl⟩
        · cases o <;> exact ⟨_, rfl⟩
      | variant nm fs r =>
        refine mkVal_total ?_
        have ho : decItems (decN reg al ctx n c') (fs.map (fun f => f.id)) r = some o := ho
        rw [decComposite_eq, ho]
        split
        · exact ⟨_, rfl⟩
        · cases o <;> exact ⟨_, rfl⟩

theorem trParts_total {reg : Reg Id} {al : Nat → Bool} {c : Bool} {n : Nat} (path : Path) (all : List (Field Id)) (L : Nat) : ∀ fs : List (Field Id),
    (∀ f ∈ fs, ∀ path bs, bs.length ≤ L → ∃ r, trN reg al n c path f.id bs = some r) →
    ∀ k vs bs, bs.length ≤ L → ∃ r, trParts (trN reg al n c) path all fs k vs bs = some r := by
  intro fs
  induction fs with
  | nil => intro _ k vs bs _; exact ⟨_, rfl⟩
  | cons f fs ih =>
    intro h k vs bs hb
    obtain ⟨r1, h1⟩ := h f (by simp) (path ++ [segAt all k]) bs hb
    rw [trParts, h1]
    cases r1 with
    | panic => exact ⟨_, rfl⟩
    | err e => exact ⟨_, rfl⟩
    | ok x =>
      obtain ⟨v, r⟩ := x
      obtain ⟨p, rfl, -⟩ := trN_sound reg al n _ _ _ _ _ _ h1
      exact ih (fun u hu => h u (List.mem_cons_of_mem _ hu)) (k + 1) (vs ++ [v]) r (by simp at hb; omega)

theorem trN_depth (reg : Reg Id) (al : Nat → Bool) (R : Nat) : ∀ n c path t bs, (∀ u, Reach reg t u → reg.rank u ≤ R) →
    reg.rank t + 1 + (R + 2) * bs.length ≤ n → ∃ r, trN reg al n c path t bs = some r := by
  intro n
  induction n with
  | zero => intro c path t bs _ h; omega
  | succ n ih =>
    intro c path t bs hR hn
    rw [trN]
    cases hv : visit reg c t bs with
    | error e => exact ⟨_, rfl⟩
    | ok w =>
      have hit : ∀ c' fs, fs.map (fun f => f.id) = w.step.children → ∃ r, trGroup al (trN reg al n c') path fs w.step.bytes = some r := by
        intro c' fs hfs
        unfold trGroup
        split
        · exact ⟨_, rfl⟩
        · split
          · exact ⟨_, rfl⟩
          · refine trParts_total path fs w.step.bytes.length fs ?_ 0 [] _ (Nat.le_refl _)
            intro f hf path' bs' hb'
            have hu : f.id ∈ w.step.children := by rw [← hfs]; exact List.mem_map_of_mem (f := fun f : Field Id => f.id) hf
            exact ih c' path' f.id bs' (fun x hx => hR x (Reach.trans (visit_refs hv _ hu) hx)) (child_depth hv hR hn hu hb')
      obtain ⟨ty, c', s⟩ := w
      cases s with
      | leaf l r => exact ⟨_, rfl⟩
      | items ts r =>
        obtain ⟨o, h⟩ := hit c' (ts.map (fun t => ⟨none, t⟩)) (by simp [DStep.children, Function.comp_def])
        have h : trGroup al (trN reg al n c') path (ts.map (fun t => ⟨none, t⟩)) r = some o := h
        simp only
        rw [trUnnamed_eq, h]; cases o <;> exact ⟨_, rfl⟩
      | composite fs r =>
        obtain ⟨o, h⟩ := hit c' fs rfl
        have h : trGroup al (trN reg al n c') path fs r = some o := h
        simp only
        rw [trGroupOf_eq, h]; cases o <;> exact ⟨_, rfl⟩
      | variant nm fs r =>
        obtain ⟨o, h⟩ := hit c' fs rfl
        have h : trGroup al (trN reg al n c') path fs r = some o := h
        simp only
        rw [trGroupOf_eq, h]; cases o <;> exact ⟨_, rfl⟩

/-! ### Finitely many types -/

theorem le_sum {n : Nat} : ∀ {l : List Nat}, n ∈ l → n ≤ l.sum
  | _ :: _, h => by
    rcases List.mem_cons.1 h with rfl | h
    · simp
    · have := le_sum h; simp; omega

theorem finite_bound {P : Id → Prop} (ids : List Id) (h : ∀ u, P u → u ∈ ids) (f : Id → Nat) : ∃ B, ∀ u, P u → f u ≤ B := by
  refine ⟨(ids.map f).sum, fun u hu => ?_⟩
  have := h u hu
  exact le_sum (List.mem_map_of_mem this)

/-- The largest number of fields in a type. -/
def TypeDef.width : Option (TypeDef Id) → Nat
  | some (.tuple ts) => ts.length
  | some (.composite fs) => fs.length
  | some (.variant ds) => (ds.map (fun d => d.fields.length)).sum
  | _ => 0

theorem bounded_of_finite {reg : Reg Id} {t : Id} (hf : FinitelyMany reg t) :
    ∃ R W, (∀ u, Reach reg t u → reg.rank u ≤ R) ∧ ∀ (Γ : Type) (ctx : Id → Γ) (canon : Prop) (i256 : Bytes32 → Primitive),
      (∀ u w v, Reach reg t u → (reg.resolve u = some (.sequence w) ∨ ∃ n, reg.resolve u = some (.array w n)) → ¬ Scale reg canon i256 ctx false w v []) →
      Bounded reg R W ctx canon i256 t := by
  obtain ⟨ids, hids⟩ := hf
  obtain ⟨R, hR⟩ := finite_bound ids hids reg.rank
  obtain ⟨W, hW⟩ := finite_bound ids hids (fun u => TypeDef.width (reg.resolve u))
  refine ⟨R, W, hR, fun Γ ctx canon i256 hs => ⟨hR, ?_, ?_, ?_, ?_, ?_⟩⟩
  · intro u ts hu ht; have := hW u hu; rwa [ht] at this
  · intro u ts hu ht; have := hW u hu; rwa [ht] at this
  · intro u ds d hu ht hd
    have := hW u hu
    rw [ht] at this
    exact Nat.le_trans (le_sum (List.mem_map_of_mem (f := fun d : VariantDef Id => d.fields.length) hd)) this
  · intro u w v hu ht; exact hs u w v hu (.inl ht)
  · intro u w n v hu ht; exact hs u w v hu (.inr ⟨n, ht⟩)

theorem isCompact_length {n : Nat} {p : List UInt8} (h : IsCompact n p) (hn : n < 2 ^ 64) : p.length ≤ 9 := by
  cases h with
  | one _ h => rw [h.1]; omega
  | two _ _ h => rw [h.1]; omega
  | four _ _ h => rw [h.1]; omega
  | @big k b bs h1 h2 h3 h4 h5 =>
    rw [List.length_cons, h5.1]
    rcases h3 with rfl | h3
    · omega
    · have : 256 ^ (k - 1) < 256 ^ 8 := Nat.lt_of_le_of_lt h3 hn
      have := (Nat.pow_lt_pow_iff_right (by decide)).1 this
      omega

end SV
